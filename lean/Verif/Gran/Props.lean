import Verif.Gran.Lemmas
import Verif.Seq.Props

/-!
# C80: granular synthesizer
-/

noncomputable section
namespace Fundsp.Gran
open Fundsp.Seq
variable {R U : Type} {n : Nat}

/-- Time rendered by calls. -/
def total (ops : List (Op n)) (sr : ℝ) : ℝ := (ops.map Op.samples).sum / sr

/-! ## Runs -/

section
variable {X : Node ℝ 0 n} {H : Heap ℝ X.σ} {ease : Fade → ℝ → ℝ} {setRate : ℝ → X.σ → X.σ} {c : Cfg R X.σ} {fuel : Nat}

theorem step_ok {s s' : St R X.σ} {o : Op n} {gs : List (Grain X.σ)} {fs : List (Frame ℝ n)} (h : s.step X H ease setRate c fuel o = .ok (s', gs, fs)) :
    instantiateVoices c fuel (s.time + o.samples / s.sr) s.voices = .ok (s'.voices, gs) ∧ s'.time = s.time + o.samples / s.sr ∧ s'.sr = s.sr ∧
      s'.rndSeed = s.rndSeed ∧ s'.ids = s.ids + gs.length := by
  unfold St.step St.spawn at h
  simp only at h
  cases hi : instantiateVoices c fuel (s.time + o.samples / s.sr) s.voices with
  | error e => rw [hi] at h; cases h
  | ok r =>
    obtain ⟨v, gs'⟩ := r
    rw [hi] at h
    cases o with
    | tick =>
      obtain ⟨e1, e2⟩ := Prod.mk.inj (Except.ok.inj h)
      obtain ⟨e2, _⟩ := Prod.mk.inj e2
      subst e1; subst e2
      exact ⟨rfl, rfl, rfl, rfl, rfl⟩
    | block size out buf g inp =>
      obtain ⟨e1, e2⟩ := Prod.mk.inj (Except.ok.inj h)
      obtain ⟨e2, _⟩ := Prod.mk.inj e2
      subst e1; subst e2
      exact ⟨rfl, rfl, rfl, rfl, rfl⟩

theorem run_cons {s s' : St R X.σ} {o : Op n} {os : List (Op n)} {log : List (Grain X.σ)} {fs : List (Frame ℝ n)}
    (h : St.run X H ease setRate c fuel (o :: os) s = .ok (s', log, fs)) :
    ∃ s1 gs f1 gs' f2, s.step X H ease setRate c fuel o = .ok (s1, gs, f1) ∧ St.run X H ease setRate c fuel os s1 = .ok (s', gs', f2) ∧
      log = gs ++ gs' ∧ fs = f1 ++ f2 := by
  unfold St.run at h
  split at h
  · cases h
  · rename_i s1 gs f1 e1
    split at h
    · cases h
    · rename_i s2 gs' f2 e2
      obtain ⟨q1, q2⟩ := Prod.mk.inj (Except.ok.inj h)
      obtain ⟨q2, q3⟩ := Prod.mk.inj q2
      exact ⟨s1, gs, f1, gs', f2, e1, by rw [e2, q1], q2.symm, q3.symm⟩

theorem run_between {sr : ℝ} (hsr : 0 < sr) (ops : List (Op n)) : ∀ {s s' : St R X.σ} {log gs : List (Grain X.σ)} {fs : List (Frame ℝ n)}, s.sr = sr →
    Between c s.time log s.voices → St.run X H ease setRate c fuel ops s = .ok (s', gs, fs) →
    Between c s'.time (log ++ gs) s'.voices ∧ s'.time = s.time + total ops sr ∧ s'.sr = sr ∧ s'.rndSeed = s.rndSeed ∧ s'.ids = s.ids + gs.length := by
  induction ops with
  | nil =>
    intro s s' log gs fs hs hb h
    obtain ⟨q1, q2⟩ := Prod.mk.inj (Except.ok.inj h)
    obtain ⟨q2, q3⟩ := Prod.mk.inj q2
    subst q1; subst q2
    exact ⟨by rw [List.append_nil]; exact hb, by simp [total], hs, rfl, rfl⟩
  | cons o ops ih =>
    intro s s' log gs fs hs hb h
    obtain ⟨s1, gs1, f1, gs2, f2, e1, e2, rfl, rfl⟩ := run_cons h
    obtain ⟨a1, a2, a3, a4, a5⟩ := step_ok e1
    have hle : s.time ≤ s1.time := by
      rw [a2, hs]; have : (0 : ℝ) ≤ o.samples / sr := by positivity
      linarith
    rw [← a2] at a1
    have b := (between_step hb hle a1).1
    obtain ⟨d1, d2, d3, d4, d5⟩ := ih (a3.trans hs) b e2
    refine ⟨by rw [← List.append_assoc]; exact d1, ?_, d3, d4.trans a4, by rw [d5, a5, List.length_append, Nat.add_assoc]⟩
    rw [d2, a2, hs]
    simp only [total, List.map_cons, List.sum_cons]
    push_cast
    ring

theorem new_between (sr : ℝ) (seed ids : Nat) : Between c (St.new c sr seed ids : St R X.σ).time [] (St.new c sr seed ids : St R X.σ).voices :=
  .inl ⟨rfl, rfl, fun _ _ => rfl⟩

end

/-! ## Properties -/

variable (X : Node ℝ 0 n) (H : Heap ℝ X.σ) (ease : Fade → ℝ → ℝ) (setRate : ℝ → X.σ → X.σ) (c : Cfg R X.σ)

/-- **C80.** Whatever the calls, the grains of every voice form an unbroken chain: the first voice starts at time zero, the others follow at equal
distances within the first grain; the next grain of a voice starts exactly where the fade-out of the previous one starts; the chain reaches up to or
beyond the time rendered, and holds no grains that start later. So no grain is missing and none is scheduled twice. -/
theorem C80_chain (fuel : Nat) (sr : ℝ) (hsr : 0 < sr) (seed ids : Nat) (ops : List (Op n)) (s : St R X.σ) (log : List (Grain X.σ)) (fs : List (Frame ℝ n))
    (h : St.run X H ease setRate c fuel ops (St.new c sr seed ids) = .ok (s, log, fs)) :
    ∃ d, (∀ g ∈ log.head?, d = g.len - g.env) ∧ (∀ g ∈ log, g.voice < c.voices ∧ 0 ≤ g.start ∧ g.start < total ops sr ∧ Made c g) ∧
      ∀ v, v < c.voices → ∃ b, total ops sr ≤ b ∧ Chain (d * v / c.voices) (ofVoice v log) b := by
  obtain ⟨b, ht, -⟩ := run_between hsr ops (log := []) rfl (new_between sr seed ids) h
  have ht : s.time = total ops sr := by rw [ht]; exact zero_add _
  rw [List.nil_append, ht] at b
  rcases b with ⟨h1, h2, h3⟩ | ⟨h1, h2⟩ | ⟨g0, l, h1, h2, h3, h4, h5, h6⟩
  · refine ⟨0, by rw [h2]; simp, by rw [h2]; simp, fun v hv => ⟨0, h1.le, ?_⟩⟩
    rw [h2]; show (0 : ℝ) * v / c.voices = 0; simp
  · refine ⟨0, by rw [h2]; simp, by rw [h2]; simp, fun v hv => ?_⟩
    rw [h1] at hv; exact absurd hv (Nat.not_lt_zero _)
  · refine ⟨g0.len - g0.env, by rw [h1]; simp, fun g hg => ⟨h4.voice g hg, (h6 g hg).1, (h6 g hg).2, h4.made g hg⟩, fun v hv => ⟨_, h5 v hv, h4.chain v hv⟩⟩

/-- **C80.** Every grain is handed to the sequencer before its start time is rendered, and not before the call that renders it. -/
theorem C80_on_time (fuel : Nat) (sr : ℝ) (hsr : 0 < sr) (seed ids : Nat) (ops : List (Op n)) (o : Op n) (s s' : St R X.σ) (log gs : List (Grain X.σ))
    (fs fs' : List (Frame ℝ n)) (h : St.run X H ease setRate c fuel ops (St.new c sr seed ids) = .ok (s, log, fs))
    (h' : s.step X H ease setRate c fuel o = .ok (s', gs, fs')) : ∀ g ∈ gs, total ops sr ≤ g.start ∧ g.start < total (ops ++ [o]) sr := by
  obtain ⟨b, ht, hr, -⟩ := run_between hsr ops (log := []) rfl (new_between sr seed ids) h
  have ht : s.time = total ops sr := by rw [ht]; exact zero_add _
  have hst := step_ok h'
  have hle : s.time ≤ s.time + o.samples / s.sr := by
    rw [hr]; have : (0 : ℝ) ≤ o.samples / sr := by positivity
    linarith
  have := (between_step b hle hst.1).2
  have e : total (ops ++ [o]) sr = s.time + o.samples / s.sr := by
    rw [ht, hr]; simp only [total, List.map_append, List.sum_append, List.map_cons, List.map_nil, List.sum_cons, List.sum_nil]; push_cast; ring
  rw [e, ← ht]
  exact this

/-! ## What sounds -/

variable {X H ease setRate c}

theorem foldl_push (es : List (Ev ℝ X.σ)) (q : Sq ℝ X.σ) : Sq.run X H ease setRate (es.map .push) q = (es.foldl (Sq.push setRate) q, []) := by
  induction es generalizing q with
  | nil => rfl
  | cons e es ih =>
    rw [List.map_cons, Sq.run]
    simp only [Sq.step]
    rw [ih]
    rfl

theorem sq_run_append (os os' : List (Seq.Op ℝ X.σ n)) (q : Sq ℝ X.σ) :
    Sq.run X H ease setRate (os ++ os') q = ((Sq.run X H ease setRate os' (Sq.run X H ease setRate os q).1).1,
      (Sq.run X H ease setRate os q).2 ++ (Sq.run X H ease setRate os' (Sq.run X H ease setRate os q).1).2) := by
  induction os generalizing q with
  | nil => rfl
  | cons o os ih =>
    rw [List.cons_append, Sq.run, ih]
    simp only [Sq.run]
    rw [List.append_assoc]

/-- The calls on the sequencer made by ticks that spawn the given groups of grains. -/
def seqOps (ids : Nat) : List (List (Grain U)) → List (Seq.Op ℝ U n)
  | [] => []
  | gs :: rest => (events ids gs).map .push ++ .tick :: seqOps (ids + gs.length) rest

theorem run_ticks (m : Nat) : ∀ {fuel : Nat} {s s' : St R X.σ} {log : List (Grain X.σ)} {fs : List (Frame ℝ n)},
    St.run X H ease setRate c fuel (List.replicate m .tick) s = .ok (s', log, fs) →
    ∃ groups, groups.length = m ∧ log = groups.flatten ∧ fs = (Sq.run X H ease setRate (seqOps s.ids groups) s.seq).2 ∧
      ∀ (sr : ℝ) (log0 : List (Grain X.σ)), 0 < sr → s.sr = sr → Between c s.time log0 s.voices →
        ∀ (k : Nat) (gs : List (Grain X.σ)), groups[k]? = some gs → ∀ g ∈ gs, s.time + k / sr ≤ g.start := by
  induction m with
  | zero =>
    intro fuel s s' log fs h
    obtain ⟨q1, q2⟩ := Prod.mk.inj (Except.ok.inj h)
    obtain ⟨q2, q3⟩ := Prod.mk.inj q2
    exact ⟨[], rfl, q2.symm, q3.symm, fun _ _ _ _ _ k gs hk => by simp at hk⟩
  | succ m ih =>
    intro fuel s s' log fs h
    rw [List.replicate_succ] at h
    obtain ⟨s1, gs1, f1, gs2, f2, e1, e2, rfl, rfl⟩ := run_cons h
    have hst := step_ok e1
    obtain ⟨groups, l1, l2, l3, l4⟩ := ih e2
    refine ⟨gs1 :: groups, by rw [List.length_cons, l1], by rw [List.flatten_cons, l2], ?_, ?_⟩
    · unfold St.step St.spawn at e1
      simp only at e1
      rw [hst.1] at e1
      simp only at e1
      obtain ⟨q1, q2⟩ := Prod.mk.inj (Except.ok.inj e1)
      obtain ⟨q2, q3⟩ := Prod.mk.inj q2
      rw [seqOps, sq_run_append, foldl_push, Sq.run]
      simp only [Sq.step, List.nil_append]
      rw [← q3, l3, ← q1]
    · intro sr log0 hsr hs hb k gs hk g hg
      have hle : s.time ≤ s.time + (Op.tick : Op n).samples / s.sr := by
        rw [hs]; have : (0 : ℝ) ≤ (Op.tick : Op n).samples / sr := by positivity
        linarith
      have hbs := between_step hb hle hst.1
      cases k with
      | zero =>
        rw [List.getElem?_cons_zero] at hk
        obtain rfl := Option.some.inj hk
        have := (hbs.2 g hg).1
        simpa using this
      | succ k =>
        rw [List.getElem?_cons_succ] at hk
        have hb1 := hbs.1
        rw [← hst.2.1] at hb1
        have := l4 sr _ hsr (hst.2.2.1.trans hs) hb1 k gs hk g hg
        rw [hst.2.1, hs] at this
        have e : (Op.tick : Op n).samples = 1 := rfl
        rw [e] at this
        push_cast at this ⊢
        rw [add_div]
        linarith

theorem events_append (ids : Nat) (l m : List (Grain U)) : events ids (l ++ m) = events ids l ++ events (ids + l.length) m := by
  induction l generalizing ids with
  | nil => rfl
  | cons g l ih => rw [List.cons_append, events, ih, events, List.cons_append, List.length_cons]; congr 3; omega

theorem events_ids (ids : Nat) (l : List (Grain U)) : (events ids l).map (·.id) = List.range' ids l.length := by
  induction l generalizing ids with
  | nil => rfl
  | cons g l ih => rw [events, List.map_cons, ih, List.length_cons, List.range'_succ]; rfl

theorem events_nodup (ids : Nat) (l : List (Grain U)) : ((events ids l).map (·.id)).Nodup := by
  rw [events_ids]; exact List.nodup_range'

theorem events_mem {ids : Nat} {l : List (Grain U)} {e : Ev ℝ U} (h : e ∈ events ids l) : ∃ g ∈ l, ∃ id, e = g.event id := by
  induction l generalizing ids with
  | nil => simp [events] at h
  | cons g l ih =>
    rcases List.mem_cons.1 h with rfl | h
    · exact ⟨g, List.mem_cons_self .., ids, rfl⟩
    · obtain ⟨g', hg, r⟩ := ih h
      exact ⟨g', List.mem_cons_of_mem _ hg, r⟩

/-- Ticking is not disturbed by events that have not started. -/
theorem ticks_late {B : Type} (tick : B → B × Frame ℝ n) (k : Nat) : ∀ (p : Sp ℝ B) (es : List (Ev ℝ B)) (used : List Nat), 0 < p.sd →
    (∀ e ∈ es, p.time + p.sd * k - p.sd / 2 ≤ e.start) →
    Sp.ticks tick ease k { p with evs := p.evs ++ es, used := used } =
      ({ (Sp.ticks tick ease k p).1 with evs := (Sp.ticks tick ease k p).1.evs ++ es, used := used }, (Sp.ticks tick ease k p).2) := by
  induction k with
  | zero => intro p es used _ _; rfl
  | succ k ih =>
    intro p es used hsd hes
    have hq : ∀ e ∈ es, ¬ e.sounds (p.time + p.sd / 2) := by
      intro e he hh
      have h1 := hes e he
      have h2 := hh.1
      push_cast at h1
      have : 0 ≤ p.sd * k := by positivity
      linarith
    have h1 : Sp.tick tick ease { p with evs := p.evs ++ es, used := used } =
        ({ (Sp.tick tick ease p).1 with evs := (Sp.tick tick ease p).1.evs ++ es, used := used }, (Sp.tick tick ease p).2) := by
      unfold Sp.tick
      simp only [List.map_append, List.sum_append]
      congr 1
      · have : es.map (Ev.adv tick p.sd p.time) = es := by
          refine (List.map_congr_left fun e he => ?_).trans (List.map_id es)
          unfold Ev.adv; rw [if_neg (hq e he)]; rfl
        rw [this]
      · funext ch
        have : (es.map fun e => e.out tick ease p.sd p.time ch).sum = 0 := by
          apply List.sum_eq_zero
          intro x hx
          obtain ⟨e, he, rfl⟩ := List.mem_map.1 hx
          unfold Ev.out; rw [if_neg (hq e he)]
        rw [this, add_zero]
    rw [Sp.ticks, Sp.ticks, h1]
    have := ih (Sp.tick tick ease p).1 es used hsd (by
      intro e he
      have := hes e he
      show p.time + p.sd + p.sd * k - p.sd / 2 ≤ _
      push_cast at this
      linarith)
    simp only
    rw [this]

theorem run_seqOps (reset : X.σ → X.σ) (groups : List (List (Grain X.σ))) : ∀ (ids : Nat) (p : Sp ℝ X.σ) (used : List Nat), 0 < p.sd →
    (∀ (k : Nat) (gs : List (Grain X.σ)), groups[k]? = some gs → ∀ g ∈ gs, p.time + p.sd * k ≤ g.start) →
    (Sp.run (ut X) reset ease setRate (seqOps ids groups : List (Seq.Op ℝ X.σ n)) p).2 =
      (Sp.ticks (ut X) ease groups.length { p with evs := p.evs ++ (events ids groups.flatten).map (Ev.rated setRate p.sr), used := used }).2 := by
  induction groups with
  | nil => intro ids p used _ _; rfl
  | cons gs rest ih =>
    intro ids p used hsd hst
    have e : (seqOps ids (gs :: rest) : List (Seq.Op ℝ X.σ n)) = (events ids gs).map .push ++ ([.tick] ++ seqOps (ids + gs.length) rest) := rfl
    rw [e, Sp.run_append, Sp.run_append]
    obtain ⟨p1, hp1, h1⟩ : ∃ p1 : Sp ℝ X.σ, Sp.run (ut X) reset ease setRate ((events ids gs).map .push : List (Seq.Op ℝ X.σ n)) p = (p1, []) ∧
        ∃ u, p1 = { p with evs := p.evs ++ (events ids gs).map (Ev.rated setRate p.sr), used := u } := by
      refine ⟨_, Sp.run_pushes .., _, rfl⟩
    obtain ⟨u, h1⟩ := h1
    rw [hp1]
    have hrun1 : Sp.run (ut X) reset ease setRate ([.tick] : List (Seq.Op ℝ X.σ n)) p1 = ((p1.tick (ut X) ease).1, [(p1.tick (ut X) ease).2]) := rfl
    rw [hrun1]
    have hsd1 : 0 < p1.sd := by rw [h1]; exact hsd
    have hlate : ∀ e ∈ (events (ids + gs.length) rest.flatten).map (Ev.rated setRate p.sr), p1.time + p1.sd * (1 : Nat) - p1.sd / 2 ≤ e.start := by
      intro x hx
      obtain ⟨y, hy, rfl⟩ := List.mem_map.1 hx
      obtain ⟨g, hg, id, rfl⟩ := events_mem hy
      obtain ⟨l, hl, hgl⟩ := List.mem_flatten.1 hg
      obtain ⟨k, hk⟩ := List.getElem?_of_mem hl
      have := hst (k + 1) l (by rw [List.getElem?_cons_succ]; exact hk) g hgl
      rw [h1]
      show p.time + p.sd * (1 : Nat) - p.sd / 2 ≤ g.start
      push_cast at this ⊢
      have h0 : 0 ≤ p.sd * k := by positivity
      linarith
    have ht := ticks_late (ease := ease) (ut X) 1 p1 _ used hsd1 hlate
    have ih' := ih (ids + gs.length) (p1.tick (ut X) ease).1 used hsd1 (by
      intro k l hk g hg
      have := hst (k + 1) l (by rw [List.getElem?_cons_succ]; exact hk) g hg
      rw [h1]
      show p.time + p.sd + p.sd * k ≤ g.start
      push_cast at this
      linarith)
    have hsr : (p1.tick (ut X) ease).1.sr = p.sr := by rw [h1]; rfl
    rw [hsr] at ih'
    simp only [List.nil_append]
    rw [ih', List.flatten_cons, events_append, List.map_append, ← List.append_assoc, List.length_cons]
    have hp : ({ p with evs := p.evs ++ (events ids gs).map (Ev.rated setRate p.sr) ++ (events (ids + gs.length) rest.flatten).map (Ev.rated setRate p.sr), used := used } : Sp ℝ X.σ) =
        { p1 with evs := p1.evs ++ (events (ids + gs.length) rest.flatten).map (Ev.rated setRate p.sr), used := used } := by rw [h1]
    rw [hp, Sp.ticks]
    have ht1 : Sp.tick (ut X) ease { p1 with evs := p1.evs ++ (events (ids + gs.length) rest.flatten).map (Ev.rated setRate p.sr), used := used } =
        ({ (p1.tick (ut X) ease).1 with evs := (p1.tick (ut X) ease).1.evs ++ (events (ids + gs.length) rest.flatten).map (Ev.rated setRate p.sr), used := used },
          (p1.tick (ut X) ease).2) := by
      have a1 := congrArg Prod.fst ht
      have a2 := congrArg Prod.snd ht
      exact Prod.ext a1 (List.cons.inj a2).1
    rw [ht1]
    simp only [hsr]
    rfl

theorem oks_seqOps (reset : X.σ → X.σ) (groups : List (List (Grain X.σ))) : ∀ (ids : Nat) (p : Sp ℝ X.σ), (∀ x ∈ p.used, x < ids) →
    Oks (ut X) reset ease setRate (seqOps ids groups : List (Seq.Op ℝ X.σ n)) p := by
  induction groups with
  | nil => intro ids p _; trivial
  | cons gs rest ih =>
    intro ids p hp
    have push : ∀ (gs : List (Grain X.σ)) (ids : Nat) (p : Sp ℝ X.σ), (∀ x ∈ p.used, x < ids) →
        Oks (ut X) reset ease setRate ((events ids gs).map .push ++ .tick :: seqOps (ids + gs.length) rest : List (Seq.Op ℝ X.σ n)) p := by
      intro gs
      induction gs with
      | nil =>
        intro ids p hp
        exact ⟨trivial, ih _ _ hp⟩
      | cons g gs ihg =>
        intro ids p hp
        refine ⟨fun hh => absurd (hp _ hh) (lt_irrefl _), ?_⟩
        have := ihg (ids + 1) (p.push ((g.event ids).rated setRate p.sr)) (by
          intro x hx
          rcases List.mem_cons.1 hx with rfl | hx
          · exact Nat.lt_succ_self _
          · exact (hp x hx).trans (Nat.lt_succ_self _))
        rw [List.length_cons, show ids + (gs.length + 1) = ids + 1 + gs.length by omega]
        exact this
    exact push gs ids p hp

theorem seqOps_noBlock (groups : List (List (Grain U))) : ∀ (ids : Nat), ∀ o ∈ (seqOps ids groups : List (Seq.Op ℝ U n)), o.isBlock = false := by
  induction groups with
  | nil => intro ids o ho; simp [seqOps] at ho
  | cons gs rest ih =>
    intro ids o ho
    rcases List.mem_append.1 ho with ho | ho
    · obtain ⟨e, _, rfl⟩ := List.mem_map.1 ho; rfl
    · rcases List.mem_cons.1 ho with rfl | ho
      · rfl
      · exact ih _ o ho

variable (X H ease setRate c)

/-- **C80.** Ticking plays all the grains spawned, each in full from its start to its end with its fades, as if they had all been scheduled at the
beginning. -/
theorem C80_sound (fuel : Nat) (sr : ℝ) (hsr : 0 < sr) (seed ids m : Nat) (s : St R X.σ) (log : List (Grain X.σ)) (fs : List (Frame ℝ n))
    (h : St.run X H ease setRate c fuel (List.replicate m .tick) (St.new c sr seed ids) = .ok (s, log, fs)) :
    fs = (List.range m).map (mixture X ease setRate sr (events ids log)) := by
  obtain ⟨groups, l1, l2, l3, l4⟩ := run_ticks m h
  have l4 := l4 sr [] hsr rfl (new_between sr seed ids)
  rw [← C22_windows X H ease setRate false sr hsr (events ids log) (events_nodup ids log) m]
  rw [C22_refines X H ease setRate false sr hsr _ (playOps_noBlock _ m) (playOps_ok _ _ _ _ _ _ _ (events_nodup ids log) m), playOps_run, l3]
  show (Sq.run X H ease setRate (seqOps ids groups) (Sq.new false sr)).2 = _
  rw [C22_refines X H ease setRate false sr hsr _ (seqOps_noBlock groups ids) (oks_seqOps X.reset groups ids _ (by intro x hx; simp [Sp.new] at hx))]
  rw [run_seqOps X.reset groups ids (Sp.new false sr) ((events ids log).map (·.id)).reverse (one_div_pos.2 hsr)]
  · rw [l1, l2]; rfl
  · intro k gs hk g hg
    have := l4 k gs hk g hg
    show (0 : ℝ) + 1 / sr * k ≤ _
    have e : (1 : ℝ) / sr * k = k / sr := by ring
    rw [e]; exact this

end Fundsp.Gran
