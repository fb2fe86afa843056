import Verif.Phase.Model
import Verif.Wavetable.Props
import Mathlib.Analysis.SpecialFunctions.Trigonometric.Basic

/-! C92: seeds and initial phases. -/

noncomputable section
namespace Fundsp.Phase
open Fundsp Fundsp.Setting

variable {i j o : Nat}

/-! ## Specification -/

/-- Two calls that are the same except, in the case of `ping`, for the pseudorandom hashes. -/
inductive Same : Ev i → Ev i → Prop where
  | refl (e : Ev i) : Same e e
  | ping (h h' : Nat → BitVec 64) : Same (.ping h) (.ping h')

/-- Once the calls `b` have been made, at the sample rate `sr`, the output no longer depends on what happened before nor on any hash, whatever the later calls. `Ok` says which
units are compared: those with the same construction parameters. -/
def Overrides (G : Gen i o) (Ok : G.σ → G.σ → Prop) (b : List (Ev i)) : Prop :=
  ∀ s t sr es es', Ok s t → List.Forall₂ Same es es' →
    (G.run s (.rate sr :: (b ++ es))).2 = (G.run t (.rate sr :: (b ++ es'))).2

/-- A call that only renders a sample or changes the sample rate. -/
inductive Plays : Ev i → Prop where
  | tick (x : Frame ℝ i) : Plays (.tick x)
  | rate (sr : ℝ) : Plays (.rate sr)

/-- A setting has no effect before the next reset, and at the reset it has the effect it would have if made just before. -/
def Deferred (G : Gen i o) (path : List Addr) (p : Par) : Prop :=
  ∀ s es es', (∀ e ∈ es, Plays e) →
    (G.run s (.set path p :: (es ++ .reset :: es'))).2 = (G.run s es).2 ++ (G.run (G.run s es).1 (.set path p :: .reset :: es')).2

/-! ## Helper lemmas -/

theorem run_append (G : Gen i o) (es es' : List (Ev i)) : ∀ s : G.σ,
    G.run s (es ++ es') = ((G.run (G.run s es).1 es').1, (G.run s es).2 ++ (G.run (G.run s es).1 es').2) := by
  induction es with
  | nil => intro s; rfl
  | cons e es ih =>
    intro s
    cases e with
    | set path p => exact ih _
    | ping h => exact ih _
    | rate sr => exact ih _
    | reset => exact ih _
    | tick x =>
      simp only [List.cons_append, Gen.run]
      rw [ih]

/-- A relation on states that no call breaks and that makes outputs equal, whatever the hashes. -/
structure Blind (G : Gen i o) (R : G.σ → G.σ → Prop) : Prop where
  set : ∀ s t path p, R s t → R (G.set s path p) (G.set t path p)
  ping : ∀ s t h h', R s t → R (G.ping s h) (G.ping t h')
  rate : ∀ s t sr, R s t → R (G.rate s sr) (G.rate t sr)
  reset : ∀ s t, R s t → R (G.reset s) (G.reset t)
  tick : ∀ s t x, R s t → R (G.tick s x).1 (G.tick t x).1 ∧ (G.tick s x).2 = (G.tick t x).2

theorem Blind.run {G : Gen i o} {R : G.σ → G.σ → Prop} (h : Blind G R) {es es' : List (Ev i)} (he : List.Forall₂ Same es es') :
    ∀ {s t : G.σ}, R s t → (G.run s es).2 = (G.run t es').2 := by
  induction he with
  | nil => intro s t _; rfl
  | cons hs _ ih =>
    intro s t hr
    cases hs with
    | ping a b => exact ih (h.ping _ _ _ _ hr)
    | refl =>
      rename_i e _ _ _
      cases e with
      | set path p => exact ih (h.set _ _ _ _ hr)
      | ping a => exact ih (h.ping _ _ _ _ hr)
      | rate sr => exact ih (h.rate _ _ _ hr)
      | reset => exact ih (h.reset _ _ hr)
      | tick x =>
        obtain ⟨h1, h2⟩ := h.tick _ _ x hr
        show _ :: _ = _ :: _
        rw [h2, ih h1]

/-- Setting the parameter at any address and resetting brings two units into the relation. -/
def Forces (G : Gen i o) (R : G.σ → G.σ → Prop) (Ok : G.σ → G.σ → Prop) (p : Par) : Prop :=
  ∀ s t path sr, Ok s t → R (G.reset (G.set (G.rate s sr) path p)) (G.reset (G.set (G.rate t sr) path p))

theorem overrides_leaf {G : Gen i o} {R Ok : G.σ → G.σ → Prop} {p : Par} (hb : Blind G R) (hf : Forces G R Ok p) (path : List Addr) :
    Overrides G Ok [.set path p, .reset] := by
  intro s t sr es es' ok he
  exact hb.run he (hf s t path sr ok)

theorem Blind.pipe {A : Gen i j} {B : Gen j o} {R : A.σ → A.σ → Prop} {Q : B.σ → B.σ → Prop} (ha : Blind A R) (hb : Blind B Q) :
    Blind (pipe A B) (fun s t => R s.1 t.1 ∧ Q s.2 t.2) where
  set s t path p h := by
    match path with
    | [] => exact h
    | .left :: rest => exact ⟨ha.set _ _ _ _ h.1, h.2⟩
    | .right :: rest => exact ⟨h.1, hb.set _ _ _ _ h.2⟩
    | .null :: rest => exact h
    | .index _ :: rest => exact h
    | .node _ :: rest => exact h
  ping s t _ _ h := ⟨ha.ping _ _ _ _ h.1, hb.ping _ _ _ _ h.2⟩
  rate s t _ h := ⟨ha.rate _ _ _ h.1, hb.rate _ _ _ h.2⟩
  reset s t h := ⟨ha.reset _ _ h.1, hb.reset _ _ h.2⟩
  tick s t x h := by
    obtain ⟨h1, h2⟩ := ha.tick _ _ x h.1
    obtain ⟨h3, h4⟩ := hb.tick _ _ (A.tick t.1 x).2 h.2
    refine ⟨⟨h1, ?_⟩, ?_⟩
    · show Q (B.tick s.2 (A.tick s.1 x).2).1 (B.tick t.2 (A.tick t.1 x).2).1
      rw [h2]; exact h3
    · show (B.tick s.2 (A.tick s.1 x).2).2 = (B.tick t.2 (A.tick t.1 x).2).2
      rw [h2]; exact h4

theorem blind_dc (n : Nat) : Blind (dc n) (fun s t => s = t) where
  set s t path p h := by rw [h]
  ping s t _ _ h := h
  rate s t _ h := h
  reset s t h := h
  tick s t x h := ⟨h, h⟩

/-- `dc >> x`: the setting reaches `x`. -/
theorem overrides_hz {n : Nat} {B : Gen n o} {Q Ok : B.σ → B.σ → Prop} {p : Par} (hb : Blind B Q) (hf : Forces B Q Ok p) :
    Overrides (pipe (dc n) B) (fun s t => s.1 = t.1 ∧ Ok s.2 t.2) [.set [.right] p, .reset] := by
  intro s t sr es es' ok he
  refine ((blind_dc n).pipe hb).run he (s := _) (t := _) ?_
  exact ⟨ok.1, hf s.2 t.2 [] sr ok.2⟩

/-- `x >> y`: the setting reaches `x`. -/
theorem overrides_left {A : Gen i j} {B : Gen j o} {R Ok : A.σ → A.σ → Prop} {p : Par} (ha : Blind A R) (hf : Forces A R Ok p)
    (hB : ∀ b h, B.ping b h = b) :
    Overrides (pipe A B) (fun s t => Ok s.1 t.1 ∧ s.2 = t.2) [.set [.left] p, .reset] := by
  have hb : Blind B (fun s t => s = t) :=
    ⟨fun s t path p h => by rw [h], fun s t h h' e => by rw [hB, hB]; exact e, fun s t sr h => by rw [h], fun s t h => by rw [h],
      fun s t x h => by rw [h]; exact ⟨rfl, rfl⟩⟩
  intro s t sr es es' ok he
  refine (ha.pipe hb).run he (s := _) (t := _) ?_
  refine ⟨hf s.1 t.1 [] sr ok.1, ?_⟩
  show B.reset (B.rate s.2 sr) = B.reset (B.rate t.2 sr)
  rw [ok.2]

/-! ### Oscillators -/

/-- Same phase, same rate, and the same initial phase, which is set. -/
def OscRel (s t : Osc.OscSt) : Prop :=
  s.phase = t.phase ∧ s.sampleDuration = t.sampleDuration ∧ s.initialPhase = t.initialPhase ∧ s.initialPhase.isSome

theorem OscRel.reset {rnd : BitVec 64 → ℝ} {s t : Osc.OscSt} (h : OscRel s t) : OscRel (s.reset rnd) (t.reset rnd) := by
  obtain ⟨p, d, g, q⟩ := s
  obtain ⟨p', d', g', q'⟩ := t
  obtain ⟨h1, h2, h3, h4⟩ := h
  simp only at h1 h2 h3 h4
  subst h1 h2 h3
  obtain ⟨v, rfl⟩ := Option.isSome_iff_exists.1 h4
  exact ⟨rfl, rfl, rfl, rfl⟩

theorem OscRel.ping {rnd : BitVec 64 → ℝ} {s t : Osc.OscSt} (h : OscRel s t) (a b : BitVec 64) : OscRel (s.setHash rnd a) (t.setHash rnd b) :=
  OscRel.reset (rnd := rnd) (s := { s with hash := a }) (t := { t with hash := b }) h

theorem OscRel.set {s t : Osc.OscSt} (h : OscRel s t) (p : Par) : OscRel (oscSet s p) (oscSet t p) := by
  cases p with
  | phase p => exact ⟨h.1, h.2.1, rfl, rfl⟩
  | seed _ => exact h
  | roughness _ => exact h
  | value _ => exact h
  | other => exact h

/-- Oscillators whose sample is made from the phase, the rate and the input, and whose phase then advances. -/
theorem blind_osc (rnd : BitVec 64 → ℝ) (d : ℝ → Frame ℝ i → ℝ) (v : ℝ → ℝ → Frame ℝ i → Frame ℝ o) :
    Blind (oscGen rnd (fun s x => (s.advance (d s.sampleDuration x), v s.phase s.sampleDuration x))) OscRel where
  set s t path p h := h.set p
  ping s t _ _ h := h.ping _ _
  rate s t _ h := ⟨h.1, rfl, h.2.2.1, h.2.2.2⟩
  reset s t h := h.reset
  tick s t x h := by
    obtain ⟨p, e, g, q⟩ := s
    obtain ⟨p', e', g', q'⟩ := t
    obtain ⟨h1, h2, h3, h4⟩ := h
    simp only at h1 h2 h3 h4
    subst h1 h2 h3
    exact ⟨⟨rfl, rfl, rfl, h4⟩, rfl⟩

theorem forces_osc (rnd : BitVec 64 → ℝ) (tick : Osc.OscSt → Frame ℝ i → Osc.OscSt × Frame ℝ o) (p : ℝ) :
    Forces (oscGen rnd tick) OscRel (fun _ _ => True) (.phase p) := fun _ _ _ _ _ => ⟨rfl, rfl, rfl, rfl⟩

theorem blind_sine (rnd : BitVec 64 → ℝ) : Blind (sine rnd) OscRel :=
  blind_osc rnd (fun e x => x 0 * e) (fun p _ _ _ => Real.sin (p * (2 * Real.pi)))
theorem blind_ramp (rnd : BitVec 64 → ℝ) : Blind (ramp rnd) OscRel := blind_osc rnd (fun e x => x 0 * e) (fun p _ _ _ => p)
theorem blind_polySaw (rnd : BitVec 64 → ℝ) : Blind (polySaw rnd) OscRel :=
  blind_osc rnd (fun e x => x 0 * e) (fun p e x _ => 2 * p - 1 - Osc.polyblep p (x 0 * e))
theorem blind_polySquare (rnd : BitVec 64 → ℝ) : Blind (polySquare rnd) OscRel :=
  blind_osc rnd (fun e x => x 0 * e) (fun p e x _ => Osc.pulseValue p (x 0 * e) (1 / 2))
theorem blind_polyPulse (rnd : BitVec 64 → ℝ) : Blind (polyPulse rnd) OscRel :=
  blind_osc rnd (fun e x => x 0 * e) (fun p e x _ => Osc.pulseValue p (x 0 * e) (x 1))

def DsfRel (s t : Osc.DsfSt) : Prop := OscRel s.osc t.osc ∧ s.roughness = t.roughness ∧ s.spacing = t.spacing

theorem DsfRel.set {s t : Osc.DsfSt} (h : DsfRel s t) (p : Par) : DsfRel (dsfSet s p) (dsfSet t p) := by
  cases p with
  | phase p => exact ⟨⟨h.1.1, h.1.2.1, rfl, rfl⟩, h.2.1, h.2.2⟩
  | seed _ => exact h
  | roughness r => exact ⟨h.1, rfl, h.2.2⟩
  | value _ => exact h
  | other => exact h

theorem dsfTick_rel {s t : Osc.DsfSt} (h : DsfRel s t) (f : ℝ) :
    DsfRel (Osc.dsfTick s f).1 (Osc.dsfTick t f).1 ∧ (Osc.dsfTick s f).2 = (Osc.dsfTick t f).2 := by
  obtain ⟨⟨p, e, g, q⟩, r, c⟩ := s
  obtain ⟨⟨p', e', g', q'⟩, r', c'⟩ := t
  obtain ⟨⟨h1, h2, h3, h4⟩, h5, h6⟩ := h
  simp only at h1 h2 h3 h4 h5 h6
  subst h1 h2 h3 h5 h6
  exact ⟨⟨⟨rfl, rfl, rfl, h4⟩, rfl, rfl⟩, rfl⟩

theorem blind_dsf1 (rnd : BitVec 64 → ℝ) : Blind (dsf1 rnd) DsfRel where
  set s t path p h := h.set p
  ping s t _ _ h := ⟨h.1.ping _ _, h.2⟩
  rate s t _ h := ⟨⟨h.1.1, rfl, h.1.2.2⟩, h.2⟩
  reset s t h := ⟨h.1.reset, h.2⟩
  tick s t x h := ⟨(dsfTick_rel h (x 0)).1, funext fun _ => (dsfTick_rel h (x 0)).2⟩

theorem blind_dsf2 (rnd : BitVec 64 → ℝ) : Blind (dsf2 rnd) (fun s t => OscRel s.osc t.osc ∧ s.spacing = t.spacing) where
  set s t path p h := by
    cases p with
    | phase p => exact ⟨⟨h.1.1, h.1.2.1, rfl, rfl⟩, h.2⟩
    | seed _ => exact h
    | roughness r => exact h
    | value _ => exact h
    | other => exact h
  ping s t _ _ h := ⟨h.1.ping _ _, h.2⟩
  rate s t _ h := ⟨⟨h.1.1, rfl, h.1.2.2⟩, h.2⟩
  reset s t h := ⟨h.1.reset, h.2⟩
  tick s t x h := by
    have := dsfTick_rel (s := s.setRoughness (x 1)) (t := t.setRoughness (x 1)) ⟨h.1, rfl, h.2⟩ (x 0)
    exact ⟨⟨this.1.1, this.1.2.2⟩, funext fun _ => this.2⟩

/-! ### Wavetable oscillators -/

def WaveRel (t : Wt.Table) (a b : Wt.WaveSt) : Prop :=
  a.phase = b.phase ∧ a.sd = b.sd ∧ a.initial = b.initial ∧ a.initial.isSome ∧ a.hint ≤ t.length - 3 ∧ b.hint ≤ t.length - 3

theorem WaveRel.reset {t : Wt.Table} {rnd : Nat → ℝ} {a b : Wt.WaveSt} (h : WaveRel t a b) : WaveRel t (a.reset rnd) (b.reset rnd) := by
  obtain ⟨p, g, q, k, e⟩ := a
  obtain ⟨p', g', q', k', e'⟩ := b
  obtain ⟨h1, h2, h3, h4, h5⟩ := h
  simp only at h1 h2 h3 h4 h5
  subst h1 h2 h3
  obtain ⟨v, rfl⟩ := Option.isSome_iff_exists.1 h4
  exact ⟨rfl, rfl, rfl, rfl, h5⟩

theorem WaveRel.set {t : Wt.Table} {a b : Wt.WaveSt} (h : WaveRel t a b) (p : Par) : WaveRel t (waveSet a p) (waveSet b p) := by
  cases p with
  | phase p => exact ⟨h.1, h.2.1, rfl, rfl, h.2.2.2.2⟩
  | seed _ => exact h
  | roughness _ => exact h
  | value _ => exact h
  | other => exact h

theorem readD_rel {t : Wt.Table} (ht : Wt.Valid t) {k k' : Nat} (h : k ≤ t.length - 3) (h' : k' ≤ t.length - 3) (f : ℝ) {p : ℝ} (h0 : 0 ≤ p) (h1 : p ≤ 1) :
    (Wt.readD t k f p).1 = (Wt.readD t k' f p).1 ∧ (Wt.readD t k f p).2 ≤ t.length - 3 ∧ (Wt.readD t k' f p).2 ≤ t.length - 3 := by
  obtain ⟨v, a, e, ha⟩ := Wt.C62_in_bounds t ht k h f p h0 h1
  obtain ⟨v', a', e', ha'⟩ := Wt.C62_in_bounds t ht k' h' f p h0 h1
  have := Wt.C62_hint t ht k k' h h' f p h0 h1
  rw [e, e'] at this
  unfold Wt.readD
  rw [e, e']
  exact ⟨Option.some.inj this, ha, ha'⟩

theorem waveTick_rel {t : Wt.Table} (ht : Wt.Valid t) (o : Nat) {a b : Wt.WaveSt} (h : WaveRel t a b) (x : Frame ℝ 1) :
    WaveRel t (a.tick t o x).1 (b.tick t o x).1 ∧ (a.tick t o x).2 = (b.tick t o x).2 := by
  obtain ⟨p, g, q, k, e⟩ := a
  obtain ⟨p', g', q', k', e'⟩ := b
  obtain ⟨h1, h2, h3, h4, h5, h6⟩ := h
  simp only at h1 h2 h3 h4 h5 h6
  subst h1 h2 h3
  obtain ⟨r1, r2, r3⟩ := readD_rel ht h5 h6 |x 0| (p := p + x 0 * e - ⌊p + x 0 * e⌋) (Int.fract_nonneg _) (Int.fract_lt_one _).le
  refine ⟨⟨rfl, rfl, rfl, h4, r2, r3⟩, ?_⟩
  funext c
  show (if c = 0 then (Wt.readD t k |x 0| (p + x 0 * e - ⌊p + x 0 * e⌋)).1 else _) = if c = 0 then (Wt.readD t k' |x 0| (p + x 0 * e - ⌊p + x 0 * e⌋)).1 else _
  rw [r1]

theorem blind_wave {t : Wt.Table} (ht : Wt.Valid t) (rnd : Nat → ℝ) (o : Nat) : Blind (wave t rnd o) (WaveRel t) where
  set s t path p h := h.set p
  ping a b x y h := WaveRel.reset (rnd := rnd) (a := { a with hash := (x 0).toNat }) (b := { b with hash := (y 0).toNat }) h
  rate s t _ h := ⟨h.1, rfl, h.2.2⟩
  reset s t h := h.reset
  tick s t x h := waveTick_rel ht o h x

def PulseRel (t : Wt.Table) (s u : PulseSt) : Prop :=
  WaveRel t s.a u.a ∧ s.b.sr = u.b.sr ∧ s.b.ready = u.b.ready ∧ (s.b.ready = true → s.b.phase = u.b.phase) ∧ s.b.hint ≤ t.length - 3 ∧ u.b.hint ≤ t.length - 3

theorem blind_pulse {t : Wt.Table} (ht : Wt.Valid t) (rnd : Nat → ℝ) : Blind (pulse t rnd) (PulseRel t) where
  set s u path p h := ⟨h.1.set p, h.2⟩
  ping s u x y h := ⟨WaveRel.reset (rnd := rnd) (a := { s.a with hash := (x 0).toNat }) (b := { u.a with hash := (y 0).toNat }) h.1, h.2⟩
  rate s u _ h := ⟨⟨h.1.1, rfl, h.1.2.2⟩, rfl, h.2.2⟩
  reset s u h := ⟨h.1.reset, h.2.1, rfl, fun h => (by cases h), h.2.2.2.2⟩
  tick s u x h := by
    obtain ⟨a, ⟨p, r, k, e⟩⟩ := s
    obtain ⟨b, ⟨p', r', k', e'⟩⟩ := u
    obtain ⟨h0, h1, h2, h3, h4, h5⟩ := h
    simp only at h0 h1 h2 h3 h4 h5
    subst h1 h2
    obtain ⟨w1, w2⟩ := waveTick_rel ht 1 h0 (fun _ => x 0)
    have key : ∀ q : ℝ, (Wt.PhaseSt.tick t ⟨p, r, k, e⟩ (fun _ => q)).1.phase = (Wt.PhaseSt.tick t ⟨p', r, k', e⟩ (fun _ => q)).1.phase ∧
        (Wt.PhaseSt.tick t ⟨p, r, k, e⟩ (fun _ => q)).1.hint ≤ t.length - 3 ∧ (Wt.PhaseSt.tick t ⟨p', r, k', e⟩ (fun _ => q)).1.hint ≤ t.length - 3 ∧
        (Wt.PhaseSt.tick t ⟨p, r, k, e⟩ (fun _ => q)).2 0 = (Wt.PhaseSt.tick t ⟨p', r, k', e⟩ (fun _ => q)).2 0 := by
      intro q
      have hd : (if r then min |(q - ⌊q⌋) - p| (min |(q - ⌊q⌋) - 1 - p| |(q - ⌊q⌋) + 1 - p|) else 0.5) =
          (if r then min |(q - ⌊q⌋) - p'| (min |(q - ⌊q⌋) - 1 - p'| |(q - ⌊q⌋) + 1 - p'|) else (0.5 : ℝ)) := by
        cases r with
        | false => rfl
        | true => rw [h3 rfl]
      obtain ⟨r1, r2, r3⟩ := readD_rel ht h4 h5 ((if r then min |(q - ⌊q⌋) - p| (min |(q - ⌊q⌋) - 1 - p| |(q - ⌊q⌋) + 1 - p|) else 0.5) * e) (p := q - ⌊q⌋)
        (Int.fract_nonneg _) (Int.fract_lt_one _).le
      refine ⟨rfl, r2, ?_, ?_⟩
      · rw [hd] at r3; exact r3
      · rw [hd] at r1
        refine Eq.trans ?_ r1
        show (Wt.readD t k _ _).1 = _
        rw [hd]
    obtain ⟨k1, k2, k3, k4⟩ := key ((a.tick t 1 (fun _ => x 0)).2 1 + x 1)
    constructor
    · refine ⟨w1, rfl, rfl, fun _ => ?_, k2, ?_⟩
      · refine k1.trans ?_
        show (Wt.PhaseSt.tick t ⟨p', r, k', e⟩ (fun _ => (a.tick t 1 (fun _ => x 0)).2 1 + x 1)).1.phase =
          (Wt.PhaseSt.tick t ⟨p', r, k', e⟩ (fun _ => (b.tick t 1 (fun _ => x 0)).2 1 + x 1)).1.phase
        rw [w2]
      · show (Wt.PhaseSt.tick t ⟨p', r, k', e⟩ (fun _ => (b.tick t 1 (fun _ => x 0)).2 1 + x 1)).1.hint ≤ _
        rw [← w2]; exact k3
    · funext c
      show (a.tick t 1 (fun _ => x 0)).2 0 - (Wt.PhaseSt.tick t ⟨p, r, k, e⟩ (fun _ => (a.tick t 1 (fun _ => x 0)).2 1 + x 1)).2 0 =
        (b.tick t 1 (fun _ => x 0)).2 0 - (Wt.PhaseSt.tick t ⟨p', r, k', e⟩ (fun _ => (b.tick t 1 (fun _ => x 0)).2 1 + x 1)).2 0
      rw [k4, w2]

/-- The pulse oscillator of this file is the composition of nodes that `Wt.pulseWave` is. -/
theorem pulse_tick (t : Wt.Table) (rnd : Nat → ℝ) (a : Wt.WaveSt) (b : Wt.PhaseSt) (x : Frame ℝ 2) :
    ((Wt.pulseWave t rnd).tick (((a, ()), ((), (((), ()), b))), ((), ())) x).2 = ((pulse t rnd).tick ⟨a, b⟩ x).2 := by
  funext c
  have : c = 0 := Fin.fin_one_eq_zero c
  subst this
  rfl

/-! ### Noise -/

def NoiseRel (s t : Noise.NoiseSt) : Prop := s.state = t.state ∧ s.seed = t.seed ∧ s.seed.isSome

theorem NoiseRel.reset {s t : Noise.NoiseSt} (h : NoiseRel s t) : NoiseRel s.reset t.reset := by
  obtain ⟨a, b, c⟩ := s
  obtain ⟨a', b', c'⟩ := t
  obtain ⟨h1, h2, h3⟩ := h
  simp only at h1 h2 h3
  subst h1 h2
  obtain ⟨v, rfl⟩ := Option.isSome_iff_exists.1 h3
  exact ⟨rfl, rfl, rfl⟩

theorem blind_noise : Blind noise NoiseRel where
  set s t path p h := by
    cases p with
    | phase p => exact h
    | seed _ => exact ⟨h.1, rfl, rfl⟩
    | roughness _ => exact h
    | value _ => exact h
    | other => exact h
  ping s t x y h := NoiseRel.reset (s := { s with hash := x 0 }) (t := { t with hash := y 0 }) h
  rate s t _ h := h
  reset s t h := h.reset
  tick s t x h := by
    obtain ⟨a, b, c⟩ := s
    obtain ⟨a', b', c'⟩ := t
    obtain ⟨h1, h2, h3⟩ := h
    simp only at h1 h2 h3
    subst h1 h2
    exact ⟨⟨rfl, rfl, h3⟩, rfl⟩

theorem forces_noise (n : BitVec 64) : Forces noise NoiseRel (fun _ _ => True) (.seed n) := by
  intro s t path sr _
  obtain ⟨a, b, c⟩ := s
  obtain ⟨a', b', c'⟩ := t
  have e : (Noise.NoiseSt.reset ⟨a, some n, c⟩).state = (Noise.NoiseSt.reset ⟨a', some n, c'⟩).state := by
    simp only [Noise.NoiseSt.reset, Option.getD_some]
  exact ⟨e, rfl, rfl⟩

def MlsRel (s t : Noise.MlsSt) : Prop := s.mls = t.mls ∧ s.seed = t.seed ∧ s.seed.isSome

theorem MlsRel.reset {s t : Noise.MlsSt} (h : MlsRel s t) : MlsRel s.reset t.reset := by
  obtain ⟨a, b, c⟩ := s
  obtain ⟨a', b', c'⟩ := t
  obtain ⟨h1, h2, h3⟩ := h
  simp only at h1 h2 h3
  subst h1 h2
  obtain ⟨v, rfl⟩ := Option.isSome_iff_exists.1 h3
  exact ⟨rfl, rfl, rfl⟩

theorem blind_mls : Blind mls MlsRel where
  set s t path p h := by
    cases p with
    | phase p => exact h
    | seed _ => exact ⟨h.1, rfl, rfl⟩
    | roughness _ => exact h
    | value _ => exact h
    | other => exact h
  ping s t x y h := MlsRel.reset (s := { s with hash := x 0 }) (t := { t with hash := y 0 }) h
  rate s t _ h := h
  reset s t h := h.reset
  tick s t x h := by
    obtain ⟨a, b, c⟩ := s
    obtain ⟨a', b', c'⟩ := t
    obtain ⟨h1, h2, h3⟩ := h
    simp only at h1 h2 h3
    subst h1 h2
    exact ⟨⟨rfl, rfl, h3⟩, rfl⟩

/-- Generators of the same order, which is a legal one. -/
def MlsOk (s t : Noise.MlsSt) : Prop := s.mls.n = t.mls.n ∧ 1 ≤ s.mls.n ∧ s.mls.n ≤ 31

theorem forces_mls (n : BitVec 64) : Forces mls MlsRel MlsOk (.seed n) := by
  intro s t path sr h
  refine ⟨?_, rfl, rfl⟩
  exact (Noise.C49_reset { s with seed := some n } { t with seed := some n } h.2.1 h.2.2 h.1 rfl).2.2

/-- Wavetable oscillators whose table hint is within the table, which holds of new ones and is kept. -/
def HintOk (t : Wt.Table) (a b : Wt.WaveSt) : Prop := a.hint ≤ t.length - 3 ∧ b.hint ≤ t.length - 3

/-- The same for both oscillators of the pulse wave. -/
def PulseOk (t : Wt.Table) (a b : PulseSt) : Prop :=
  HintOk t a.a b.a ∧ a.b.hint ≤ t.length - 3 ∧ b.b.hint ≤ t.length - 3

/-! ## C92 -/

/-- **C92, phase.** `x.phase(p)` fixes the output of every oscillator from then on: it does not depend on earlier use, nor on the pseudorandom hashes that the surrounding
graph gives, at any time. -/
theorem C92_phase (rnd : BitVec 64 → ℝ) (p : ℝ) :
    Overrides (sine rnd) (fun _ _ => True) (phaseBuilder p) ∧ Overrides (ramp rnd) (fun _ _ => True) (phaseBuilder p) ∧
    Overrides (polySaw rnd) (fun _ _ => True) (phaseBuilder p) ∧ Overrides (polySquare rnd) (fun _ _ => True) (phaseBuilder p) ∧
    Overrides (polyPulse rnd) (fun _ _ => True) (phaseBuilder p) ∧
    Overrides (dsf1 rnd) (fun s t => s.roughness = t.roughness ∧ s.spacing = t.spacing) (phaseBuilder p) ∧
    Overrides (dsf2 rnd) (fun s t => s.spacing = t.spacing) (phaseBuilder p) ∧
    (∀ (t : Wt.Table) (rnd : Nat → ℝ) (o : Nat), Wt.Valid t → Overrides (wave t rnd o) (HintOk t) (phaseBuilder p)) ∧
    (∀ (t : Wt.Table) (rnd : Nat → ℝ), Wt.Valid t → Overrides (pulse t rnd) (PulseOk t) (phaseBuilder p)) := by
  refine ⟨overrides_leaf (blind_sine rnd) (forces_osc rnd _ p) _, overrides_leaf (blind_ramp rnd) (forces_osc rnd _ p) _,
    overrides_leaf (blind_polySaw rnd) (forces_osc rnd _ p) _, overrides_leaf (blind_polySquare rnd) (forces_osc rnd _ p) _,
    overrides_leaf (blind_polyPulse rnd) (forces_osc rnd _ p) _, ?_, ?_, ?_, ?_⟩
  · exact overrides_leaf (blind_dsf1 rnd) (fun s t _ _ h => ⟨⟨rfl, rfl, rfl, rfl⟩, h.1, h.2⟩) _
  · exact overrides_leaf (blind_dsf2 rnd) (fun s t _ _ h => ⟨⟨rfl, rfl, rfl, rfl⟩, h⟩) _
  · intro t rnd o ht
    exact overrides_leaf (blind_wave ht rnd o) (fun s t _ _ h => ⟨rfl, rfl, rfl, rfl, h.1, h.2⟩) _
  · intro t rnd ht
    exact overrides_leaf (blind_pulse ht rnd) (fun s t _ _ h => ⟨⟨rfl, rfl, rfl, rfl, h.1.1, h.1.2⟩, rfl, rfl, fun h => (by cases h), h.2.1, h.2.2⟩) _

/-- **C92, phase of fixed oscillators.** The same for the forms at a fixed frequency (`sine_hz(f)`, `saw_hz(f)`, `poly_pulse_hz(f, w)` and so on), which are `dc(..) >> x`. -/
theorem C92_phase_hz (rnd : BitVec 64 → ℝ) (p : ℝ) :
    Overrides (pipe (dc 1) (sine rnd)) (fun s t => s.1 = t.1) (phaseBuilder p) ∧ Overrides (pipe (dc 1) (ramp rnd)) (fun s t => s.1 = t.1) (phaseBuilder p) ∧
    Overrides (pipe (dc 1) (polySaw rnd)) (fun s t => s.1 = t.1) (phaseBuilder p) ∧
    Overrides (pipe (dc 1) (polySquare rnd)) (fun s t => s.1 = t.1) (phaseBuilder p) ∧
    Overrides (pipe (dc 2) (polyPulse rnd)) (fun s t => s.1 = t.1) (phaseBuilder p) ∧
    (∀ (t : Wt.Table) (rnd : Nat → ℝ) (o : Nat), Wt.Valid t →
      Overrides (pipe (dc 1) (wave t rnd o)) (fun s u => s.1 = u.1 ∧ HintOk t s.2 u.2) (phaseBuilder p)) := by
  have w : ∀ {n : Nat} {B : Gen n 1}, Overrides (pipe (dc n) B) (fun s t => s.1 = t.1 ∧ True) (phaseBuilder p) →
      Overrides (pipe (dc n) B) (fun s t => s.1 = t.1) (phaseBuilder p) := fun h s t sr es es' ok he => h s t sr es es' ⟨ok, trivial⟩ he
  refine ⟨w (overrides_hz (blind_sine rnd) (forces_osc rnd _ p)), w (overrides_hz (blind_ramp rnd) (forces_osc rnd _ p)),
    w (overrides_hz (blind_polySaw rnd) (forces_osc rnd _ p)), w (overrides_hz (blind_polySquare rnd) (forces_osc rnd _ p)),
    w (overrides_hz (blind_polyPulse rnd) (forces_osc rnd _ p)), ?_⟩
  intro t rnd o ht
  have hf : Forces (wave t rnd o) (WaveRel t) (HintOk t) (.phase p) := fun s t _ _ h => ⟨rfl, rfl, rfl, rfl, h.1, h.2⟩
  exact overrides_hz (B := wave t rnd o) (blind_wave ht rnd o) hf

/-- **C92, seed.** `x.seed(n)` fixes the output of the noise generators: `noise`, `white`, `mls` and, as any `noise >> y` where `y` has no hash, `pink` and `brown`. -/
theorem C92_seed (n : BitVec 64) :
    Overrides noise (fun _ _ => True) (seedBuilder n) ∧ Overrides mls MlsOk (seedBuilder n) ∧
    (∀ (o : Nat) (Y : Gen 1 o), (∀ b h, Y.ping b h = b) → Overrides (pipe noise Y) (fun s t => s.2 = t.2) (seedBuilder n)) ∧
    (∀ (o : Nat) (Y : Gen 1 o), (∀ b h, Y.ping b h = b) → Overrides (pipe mls Y) (fun s t => MlsOk s.1 t.1 ∧ s.2 = t.2) (seedBuilder n)) := by
  refine ⟨overrides_leaf blind_noise (forces_noise n) _, overrides_leaf blind_mls (forces_mls n) _, ?_, ?_⟩
  · intro o Y hY s t sr es es' ok he
    exact overrides_left (Ok := fun _ _ => True) blind_noise (forces_noise n) hY s t sr es es' ⟨trivial, ok⟩ he
  · intro o Y hY
    exact overrides_left blind_mls (forces_mls n) hY

/-- Phase of an oscillator after some samples at the given frequencies, in cycles, not wrapped. -/
def cycles (p sr : ℝ) (f : Nat → ℝ) (k : Nat) : ℝ := p + (∑ m ∈ Finset.range k, f m) / sr

theorem osc_phase (rnd : BitVec 64 → ℝ) (v : ℝ → ℝ → Frame ℝ 1 → Frame ℝ o) (sr : ℝ) (f : Nat → ℝ) (n k : Nat) (s : Osc.OscSt) (p : ℝ)
    (hd : s.sampleDuration = 1 / sr) (hp : Int.fract s.phase = Int.fract (cycles p sr f k)) (hk : 0 < k → s.phase = Int.fract (cycles p sr f k))
    (h0 : k = 0 → s.phase = p) :
    ((oscGen rnd (fun s x => (s.advance (x 0 * s.sampleDuration), v s.phase s.sampleDuration x))).run s
      ((List.range' k n).map fun m => .tick (fun _ => f m))).2 =
    (List.range' k n).map fun m => v (if m = 0 then p else Int.fract (cycles p sr f m)) (1 / sr) (fun _ => f m) := by
  induction n generalizing k s with
  | zero => rfl
  | succ n ih =>
    rw [List.range'_succ, List.map_cons, List.map_cons]
    have e : s.phase = if k = 0 then p else Int.fract (cycles p sr f k) := by
      split
      · rename_i h; exact h0 h
      · exact hk (by omega)
    have hn : (s.advance (f k * s.sampleDuration)).phase = Int.fract (cycles p sr f (k + 1)) := by
      show s.phase + f k * s.sampleDuration - ⌊s.phase + f k * s.sampleDuration⌋ = _
      have : Int.fract (s.phase + f k * s.sampleDuration) = Int.fract (cycles p sr f (k + 1)) := by
        rw [Int.fract_eq_fract] at hp ⊢
        obtain ⟨z, hz⟩ := hp
        refine ⟨z, ?_⟩
        rw [← hz, hd]
        unfold cycles
        rw [Finset.sum_range_succ]
        ring
      exact this
    show v s.phase s.sampleDuration (fun _ => f k) :: _ = _
    rw [e, hd]
    refine congrArg (_ :: ·) ?_
    exact ih (k + 1) (s.advance (f k * s.sampleDuration)) hd (by rw [hn, Int.fract_fract]) (fun _ => hn) (fun h => by omega)

/-- **C92, the signal.** At sample rate `sr` and with frequencies `f`, `ramp().phase(p)` and `sine().phase(p)` start at phase `p`, whatever happened before: sample `k` is the
phase `p` plus the frequencies so far over the sample rate, or its sine. -/
theorem C92_exact (rnd : BitVec 64 → ℝ) (s : Osc.OscSt) (sr p : ℝ) (hp : 0 ≤ p ∧ p < 1) (f : Nat → ℝ) (n : Nat) :
    ((ramp rnd).run s (.rate sr :: (phaseBuilder p ++ (List.range n).map fun m => .tick (fun _ => f m)))).2 =
      (List.range n).map (fun k _ => Int.fract (p + (∑ m ∈ Finset.range k, f m) / sr)) ∧
    ((sine rnd).run s (.rate sr :: (phaseBuilder p ++ (List.range n).map fun m => .tick (fun _ => f m)))).2 =
      (List.range n).map (fun k _ => Real.sin (2 * Real.pi * (p + (∑ m ∈ Finset.range k, f m) / sr))) := by
  have start : ∀ m, m = 0 → cycles p sr f m = p := by rintro m rfl; simp [cycles]
  constructor
  · rw [List.range_eq_range']
    refine Eq.trans (osc_phase rnd (fun p _ _ _ => p) sr f n 0 _ p rfl (by rw [start 0 rfl]; rfl) (fun h => by omega) (fun _ => rfl)) ?_
    refine List.map_congr_left fun k _ => ?_
    funext _
    split
    · rename_i h
      rw [show p + (∑ m ∈ Finset.range k, f m) / sr = p from start k h, Int.fract_eq_self.2 hp]
    · rfl
  · rw [List.range_eq_range']
    refine Eq.trans (osc_phase rnd (fun p _ _ _ => Real.sin (p * (2 * Real.pi))) sr f n 0 _ p rfl (by rw [start 0 rfl]; rfl) (fun h => by omega) (fun _ => rfl)) ?_
    refine List.map_congr_left fun k _ => ?_
    funext _
    split
    · rename_i h
      rw [show p + (∑ m ∈ Finset.range k, f m) / sr = p from start k h, mul_comm]
    · show Real.sin (Int.fract (cycles p sr f k) * (2 * Real.pi)) = Real.sin (2 * Real.pi * cycles p sr f k)
      rw [Int.fract, sub_mul, Real.sin_sub_int_mul_two_pi, mul_comm]

theorem hz_run (rnd : BitVec 64 → ℝ) (f : ℝ) (n : Nat) : ∀ s : Osc.OscSt,
    ((pipe (dc 1) (sine rnd)).run ((fun _ => f : Frame ℝ 1), s) (List.replicate n (.tick (fun c => c.elim0)))).2 =
      ((sine rnd).run s (List.replicate n (.tick (fun _ => f)))).2 := by
  induction n with
  | zero => intro s; rfl
  | succ n ih => intro s; exact congrArg (_ :: ·) (ih (Osc.sineTick s (fun _ => f)).1)

/-- **C92, the documented example.** `sine_hz(f).phase(p)` is the sine wave of frequency `f` that starts from phase `p`; with `p = 0` it starts from zero. -/
theorem C92_sine_hz (rnd : BitVec 64 → ℝ) (f : ℝ) (s : Osc.OscSt) (sr p : ℝ) (hp : 0 ≤ p ∧ p < 1) (n : Nat) :
    ((pipe (dc 1) (sine rnd)).run ((fun _ => f : Frame ℝ 1), s) (.rate sr :: (phaseBuilder p ++ List.replicate n (.tick (fun c => c.elim0))))).2 =
      (List.range n).map (fun (k : Nat) _ => Real.sin (2 * Real.pi * (p + f * (k : ℝ) / sr))) := by
  refine Eq.trans (hz_run rnd f n (((s.setSampleRate sr : Osc.OscSt) |> fun s => oscSet s (.phase p)).reset rnd)) ?_
  have h := (C92_exact rnd s sr p hp (fun _ => f) n).2
  have e : (List.range n).map (fun _ => (Ev.tick (fun _ => f) : Ev 1)) = List.replicate n (.tick (fun _ => f)) := by
    rw [List.map_const']; simp
  rw [e] at h
  refine Eq.trans h ?_
  refine List.map_congr_left fun k _ => ?_
  funext _
  simp only [Finset.sum_const, Finset.card_range, nsmul_eq_mul]
  rw [mul_comm f]

/-- **C92, the starting point.** After `x.phase(p)` every oscillator sounds as one that is at phase `p`, at rate `sr`, with override `p`, and otherwise new; after `x.seed(n)` the
sequence generator is at the state `1 + m mod (2^b - 1)` for the exclusive or `m` of the halves of the seed. -/
theorem C92_start (rnd : BitVec 64 → ℝ) (sr p : ℝ) (es1 : List (Ev 1)) (es2 : List (Ev 2)) :
    (∀ s, ((polySaw rnd).run s (.rate sr :: (phaseBuilder p ++ es1))).2 = ((polySaw rnd).run (⟨p, 1 / sr, 0, some p⟩ : Osc.OscSt) es1).2) ∧
    (∀ s, ((polySquare rnd).run s (.rate sr :: (phaseBuilder p ++ es1))).2 = ((polySquare rnd).run (⟨p, 1 / sr, 0, some p⟩ : Osc.OscSt) es1).2) ∧
    (∀ s, ((polyPulse rnd).run s (.rate sr :: (phaseBuilder p ++ es2))).2 = ((polyPulse rnd).run (⟨p, 1 / sr, 0, some p⟩ : Osc.OscSt) es2).2) ∧
    (∀ s : Osc.DsfSt, ((dsf1 rnd).run s (.rate sr :: (phaseBuilder p ++ es1))).2 =
      ((dsf1 rnd).run (⟨⟨p, 1 / sr, 0, some p⟩, s.roughness, s.spacing⟩ : Osc.DsfSt) es1).2) ∧
    (∀ s : Osc.DsfSt, ((dsf2 rnd).run s (.rate sr :: (phaseBuilder p ++ es2))).2 =
      ((dsf2 rnd).run (⟨⟨p, 1 / sr, 0, some p⟩, 0.5, s.spacing⟩ : Osc.DsfSt) es2).2) ∧
    (∀ (t : Wt.Table) (rnd : Nat → ℝ) (o : Nat) (s : Wt.WaveSt), Wt.Valid t → s.hint ≤ t.length - 3 →
      ((wave t rnd o).run s (.rate sr :: (phaseBuilder p ++ es1))).2 = ((wave t rnd o).run (⟨p, 0, some p, 0, 1 / sr⟩ : Wt.WaveSt) es1).2) ∧
    (∀ (t : Wt.Table) (rnd : Nat → ℝ) (s : PulseSt), Wt.Valid t → s.a.hint ≤ t.length - 3 → s.b.hint ≤ t.length - 3 →
      ((pulse t rnd).run s (.rate sr :: (phaseBuilder p ++ es2))).2 =
      ((pulse t rnd).run (⟨⟨p, 0, some p, 0, 1 / sr⟩, ⟨0, false, 0, sr⟩⟩ : PulseSt) es2).2) ∧
    (∀ (s : Noise.MlsSt) (n : BitVec 64) es, 1 ≤ s.mls.n → s.mls.n ≤ 31 →
      (mls.run s (seedBuilder n ++ es)).2 =
      (mls.run (⟨⟨s.mls.n, 1 + (n.setWidth 32 ^^^ (n >>> 32).setWidth 32).toNat % (2 ^ s.mls.n - 1)⟩, some n, 0⟩ : Noise.MlsSt) es).2) := by
  have rr : ∀ {i : Nat} (es : List (Ev i)), List.Forall₂ Same es es := fun es => by
    induction es with
    | nil => exact .nil
    | cons e es ih => exact .cons (.refl e) ih
  refine ⟨fun s => ?_, fun s => ?_, fun s => ?_, fun s => ?_, fun s => ?_, fun t rnd o s ht h => ?_, fun t rnd s ht h h' => ?_, fun s n es h1 h2 => ?_⟩
  · exact (blind_polySaw rnd).run (rr es1) ⟨rfl, rfl, rfl, rfl⟩
  · exact (blind_polySquare rnd).run (rr es1) ⟨rfl, rfl, rfl, rfl⟩
  · exact (blind_polyPulse rnd).run (rr es2) ⟨rfl, rfl, rfl, rfl⟩
  · exact (blind_dsf1 rnd).run (rr es1) ⟨⟨rfl, rfl, rfl, rfl⟩, rfl, rfl⟩
  · exact (blind_dsf2 rnd).run (rr es2) ⟨⟨rfl, rfl, rfl, rfl⟩, rfl⟩
  · exact (blind_wave ht rnd o).run (rr es1) ⟨rfl, rfl, rfl, rfl, h, Nat.zero_le _⟩
  · exact (blind_pulse ht rnd).run (rr es2) ⟨⟨rfl, rfl, rfl, rfl, h, Nat.zero_le _⟩, rfl, rfl, fun h => (by cases h), h', Nat.zero_le _⟩
  · have e : (Noise.MlsSt.reset { s with seed := some n }).mls = ⟨s.mls.n, 1 + (n.setWidth 32 ^^^ (n >>> 32).setWidth 32).toNat % (2 ^ s.mls.n - 1)⟩ := by
      simp only [Noise.MlsSt.reset, Noise.MlsState.newWithSeed, h1, h2, and_self, if_true, Option.getD_some, Noise.fold64, Nat.one_shiftLeft, BitVec.setWidth_xor]
    exact blind_mls.run (rr es) (s := Noise.MlsSt.reset { s with seed := some n }) ⟨e, rfl, rfl⟩

/-- **C92, seeded noise.** Sample `k` of `noise().seed(n)` is that of the state `k + 1` steps after the exclusive or of the halves of the seed, whatever happened before. -/
theorem C92_noise_exact (s : Noise.NoiseSt) (n : BitVec 64) (count : Nat) (x : Frame ℝ 0) :
    (noise.run s (seedBuilder n ++ List.replicate count (.tick x))).2 =
      (List.range count).map (fun k _ => Noise.sample Noise.realNoise ((n.setWidth 32 ^^^ (n >>> 32).setWidth 32) + BitVec.ofNat 32 (k + 1))) := by
  have key : ∀ (count : Nat) (s : Noise.NoiseSt), (noise.run s (List.replicate count (.tick x))).2 =
      (List.range count).map (fun k _ => Noise.sample Noise.realNoise (s.state + BitVec.ofNat 32 (k + 1))) := by
    intro count
    induction count with
    | zero => intro s; rfl
    | succ m ih =>
      intro s
      rw [List.range_succ_eq_map, List.map_cons, List.map_map]
      refine congrArg₂ List.cons rfl ?_
      refine (ih { s with state := s.state + 1 }).trans ?_
      refine List.map_congr_left fun k _ => ?_
      funext _
      show Noise.sample _ (s.state + 1 + BitVec.ofNat 32 (k + 1)) = Noise.sample _ (s.state + BitVec.ofNat 32 (k + 1 + 1))
      congr 1
      rw [BitVec.add_assoc]
      congr 1
      rw [BitVec.ofNat_add (k + 1) 1, BitVec.add_comm]
      rfl
  refine (key count _).trans ?_
  refine List.map_congr_left fun k _ => ?_
  funext _
  show Noise.sample _ (Noise.fold64 n + BitVec.ofNat 32 (k + 1)) = _
  unfold Noise.fold64
  rw [BitVec.setWidth_xor]

theorem deferred_of (G : Gen i o) (path : List Addr) (p : Par)
    (ht : ∀ s x, (G.tick (G.set s path p) x).1 = G.set (G.tick s x).1 path p ∧ (G.tick (G.set s path p) x).2 = (G.tick s x).2)
    (hr : ∀ s sr, G.rate (G.set s path p) sr = G.set (G.rate s sr) path p) : Deferred G path p := by
  intro s es es' he
  have key : ∀ (es : List (Ev i)) (s : G.σ), (∀ e ∈ es, Plays e) → (G.run (G.set s path p) es).2 = (G.run s es).2 ∧
      (G.run (G.set s path p) es).1 = G.set (G.run s es).1 path p := by
    intro es
    induction es with
    | nil => intro s _; exact ⟨rfl, rfl⟩
    | cons e es ih =>
      intro s he
      have h1 := he e (by simp)
      have h2 : ∀ e ∈ es, Plays e := fun e h => he e (by simp [h])
      cases h1 with
      | tick x =>
        obtain ⟨a, b⟩ := ht s x
        obtain ⟨c, d⟩ := ih (G.tick s x).1 h2
        constructor
        · show _ :: (G.run (G.tick (G.set s path p) x).1 es).2 = _ :: _
          rw [a, b, c]
        · show (G.run (G.tick (G.set s path p) x).1 es).1 = _
          rw [a]; exact d
      | rate sr =>
        obtain ⟨c, d⟩ := ih (G.rate s sr) h2
        constructor
        · show (G.run (G.rate (G.set s path p) sr) es).2 = _
          rw [hr]; exact c
        · show (G.run (G.rate (G.set s path p) sr) es).1 = _
          rw [hr]; exact d
  show (G.run (G.set s path p) (es ++ .reset :: es')).2 = _
  rw [run_append]
  obtain ⟨a, b⟩ := key es s he
  show _ ++ _ = _ ++ (G.run (G.set (G.run s es).1 path p) (.reset :: es')).2
  rw [a, b]

/-- **C92, when settings take effect.** A `phase` or `seed` setting made on the generator itself has no effect on the samples before the next reset, and has its effect there. -/
theorem C92_deferred (rnd : BitVec 64 → ℝ) (path : List Addr) (p : ℝ) (n : BitVec 64) :
    Deferred (sine rnd) path (.phase p) ∧ Deferred (ramp rnd) path (.phase p) ∧ Deferred (polySaw rnd) path (.phase p) ∧
    Deferred (polySquare rnd) path (.phase p) ∧ Deferred (polyPulse rnd) path (.phase p) ∧ Deferred (dsf1 rnd) path (.phase p) ∧
    Deferred (dsf2 rnd) path (.phase p) ∧ (∀ t rnd o, Deferred (wave t rnd o) path (.phase p)) ∧ (∀ t rnd, Deferred (pulse t rnd) path (.phase p)) ∧
    Deferred noise path (.seed n) ∧ Deferred mls path (.seed n) := by
  refine ⟨?_, ?_, ?_, ?_, ?_, ?_, ?_, ?_, ?_, ?_, ?_⟩
  case refine_8 => intro t rnd o; exact deferred_of _ _ _ (fun _ _ => ⟨rfl, rfl⟩) (fun _ _ => rfl)
  case refine_9 => intro t rnd; exact deferred_of _ _ _ (fun _ _ => ⟨rfl, rfl⟩) (fun _ _ => rfl)
  all_goals exact deferred_of _ _ _ (fun _ _ => ⟨rfl, rfl⟩) (fun _ _ => rfl)

/-- **C92, later changes (partial).** On an oscillator with a fixed frequency the setting must be addressed to the right: then it works as on the oscillator itself. Missing: the
setting without an address, see `C92_violation_hz`. -/
theorem C92_deferred_hz_partial (rnd : BitVec 64 → ℝ) (p : ℝ) :
    Deferred (pipe (dc 1) (sine rnd)) [.right] (.phase p) ∧ Deferred (pipe (dc 1) (ramp rnd)) [.right] (.phase p) ∧
    Deferred (pipe (dc 1) (polySaw rnd)) [.right] (.phase p) ∧ Deferred (pipe (dc 1) (polySquare rnd)) [.right] (.phase p) ∧
    Deferred (pipe (dc 2) (polyPulse rnd)) [.right] (.phase p) ∧ ∀ t rnd o, Deferred (pipe (dc 1) (wave t rnd o)) [.right] (.phase p) := by
  refine ⟨?_, ?_, ?_, ?_, ?_, ?_⟩
  case refine_6 => intro t rnd o; exact deferred_of _ _ _ (fun _ _ => ⟨rfl, rfl⟩) (fun _ _ => rfl)
  all_goals exact deferred_of _ _ _ (fun _ _ => ⟨rfl, rfl⟩) (fun _ _ => rfl)

/-- **C92, unaddressed settings.** A setting without an address has no effect on `x >> y`. -/
theorem C92_unaddressed (A : Gen i j) (B : Gen j o) (s : (pipe A B).σ) (p : Par) (es : List (Ev i)) :
    (pipe A B).run s (.set [] p :: es) = (pipe A B).run s es := rfl

/-- **C92 fails for the documented way to change the phase later.** After `let mut a = sine_hz(220.0).phase(0.0)`, `a.set(Setting::phase(0.25))` and a reset, the wave still
starts from phase 0, where it is 0, and not from phase 0.25, where it is 1. -/
theorem C92_violation_hz (rnd : BitVec 64 → ℝ) (s : Osc.OscSt) :
    ((pipe (dc 1) (sine rnd)).run ((fun _ => 220 : Frame ℝ 1), s)
      (phaseBuilder 0 ++ [.set [] (.phase 0.25), .reset, .tick (fun c => c.elim0)])).2 = [fun _ => 0] ∧
    Real.sin (2 * Real.pi * 0.25) = 1 := by
  constructor
  · show [fun _ => Real.sin ((0 : ℝ) * (2 * Real.pi))] = _
    rw [zero_mul, Real.sin_zero]
  · rw [show 2 * Real.pi * 0.25 = Real.pi / 2 by ring]; exact Real.sin_pi_div_two

/-- **C92, determinism.** Without an override the hash decides: two generators made alike and given the same hash sound alike, whatever happened before. -/
theorem C92_deterministic (rnd : BitVec 64 → ℝ) (h : Nat → BitVec 64) (sr : ℝ) :
    (∀ (s t : Osc.OscSt) es, s.initialPhase = t.initialPhase →
      ((sine rnd).run s (.rate sr :: .ping h :: es)).2 = ((sine rnd).run t (.rate sr :: .ping h :: es)).2 ∧
      ((ramp rnd).run s (.rate sr :: .ping h :: es)).2 = ((ramp rnd).run t (.rate sr :: .ping h :: es)).2 ∧
      ((polySaw rnd).run s (.rate sr :: .ping h :: es)).2 = ((polySaw rnd).run t (.rate sr :: .ping h :: es)).2 ∧
      ((polySquare rnd).run s (.rate sr :: .ping h :: es)).2 = ((polySquare rnd).run t (.rate sr :: .ping h :: es)).2) ∧
    (∀ (s t : Noise.NoiseSt) es, s.seed = t.seed → (noise.run s (.ping h :: es)).2 = (noise.run t (.ping h :: es)).2) := by
  constructor
  · intro s t es e
    have : (s.setSampleRate sr).setHash rnd (h 0) = (t.setSampleRate sr).setHash rnd (h 0) := by
      obtain ⟨a, b, c, d⟩ := s
      obtain ⟨a', b', c', d'⟩ := t
      simp only at e
      subst e
      rfl
    refine ⟨?_, ?_, ?_, ?_⟩
    · exact congrArg (fun s => ((sine rnd).run s es).2) this
    · exact congrArg (fun s => ((ramp rnd).run s es).2) this
    · exact congrArg (fun s => ((polySaw rnd).run s es).2) this
    · exact congrArg (fun s => ((polySquare rnd).run s es).2) this
  · intro s t es e
    have : s.setHash (h 0) = t.setHash (h 0) := by
      obtain ⟨a, b, c⟩ := s
      obtain ⟨a', b', c'⟩ := t
      simp only at e
      subst e
      rfl
    exact congrArg (fun s => (noise.run s es).2) this

/-! ## Concrete cases -/

/-- Calls that differ in a hash: the surrounding graphs differ. -/
example : List.Forall₂ Same [Ev.ping (i := 1) (fun _ => 5), .tick (fun _ => 440), .reset] [.ping (fun _ => 77), .tick (fun _ => 440), .reset] :=
  .cons (.ping _ _) (.cons (.refl _) (.cons (.refl _) .nil))

/-- A new sine and one used for a while at another hash meet the hypothesis of `C92_phase`, and `sine().phase(0.25)` starts with 1. -/
example (rnd : BitVec 64 → ℝ) (s : Osc.OscSt) : ((sine rnd).run s (.rate 44100 :: (phaseBuilder 0.25 ++ [.tick (fun _ => 440)]))).2 = [fun _ => 1] := by
  have h := (C92_exact rnd s 44100 0.25 (by norm_num) (fun _ => 440) 1).2
  refine h.trans ?_
  show [fun _ => Real.sin (2 * Real.pi * (0.25 + (∑ m ∈ Finset.range 0, (440 : ℝ)) / 44100))] = _
  rw [Finset.sum_range_zero, zero_div, add_zero, (C92_violation_hz rnd s).2]

/-- Two sequence generators of order 29 in different states. -/
example : MlsOk ⟨⟨29, 5⟩, none, 3⟩ ⟨⟨29, 8⟩, some 4, 9⟩ := ⟨rfl, by norm_num, by norm_num⟩

/-- New wavetable oscillators have a legal hint. -/
example (t : Wt.Table) : HintOk t Wt.WaveSt.new Wt.WaveSt.new := ⟨Nat.zero_le _, Nat.zero_le _⟩

end Fundsp.Phase
