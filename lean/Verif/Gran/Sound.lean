import Verif.Gran.Sched
import Verif.Math.Props

/-!
# C80: the sound of a grain

What is heard of every grain, and what the generator is asked for, written out.
-/

noncomputable section
namespace Fundsp.Gran
open Fundsp.Seq
variable {R U : Type} {n : Nat}

open Classical in
/-- Specification. The gain of a grain at time `t`: it rises by the power curve during the first `env` seconds and falls by the same curve during the last ones. -/
def grainGain (power : ℝ → ℝ) (start len env t : ℝ) : ℝ :=
  (if env ≤ 0 ∨ start + env ≤ t then 1 else power ((t - start) / env)) *
    (if env ≤ 0 ∨ t ≤ start + len - env then 1 else power ((start + len - t) / env))

open Classical in
/-- Specification. What a grain contributes to sample `k`. -/
def grainPart (X : Node ℝ 0 n) (power : ℝ → ℝ) (setRate : ℝ → X.σ → X.σ) (sr : ℝ) (k : ℕ) (ch : Fin n) (g : Grain X.σ) : ℝ :=
  if g.start < (k + 1 / 2) / sr ∧ (k + 1 / 2) / sr < g.start + g.len then
    grainGain power g.start g.len g.env (k / sr) * X.stream (setRate sr g.unit) noInput (k - rnd (g.start * sr)) ch
  else 0

theorem part_event (X : Node ℝ 0 n) (ease : Fade → ℝ → ℝ) (setRate : ℝ → X.σ → X.σ) (sr : ℝ) (k : ℕ) (ch : Fin n) (g : Grain X.σ) (id : Nat) :
    part X ease setRate sr k ch (g.event id) = grainPart X (ease .power) setRate sr k ch g := by
  have e : (g.event id).sounds ((k + 1 / 2) / sr) ↔ g.start < ((k : ℝ) + 1 / 2) / sr ∧ ((k : ℝ) + 1 / 2) / sr < g.start + g.len := by
    unfold Ev.sounds Grain.event
    simp
  unfold part grainPart
  by_cases h : (g.event id).sounds ((k + 1 / 2) / sr)
  · rw [if_pos h, if_pos (e.1 h)]
    congr 1
  · rw [if_neg h, if_neg (fun q => h (e.2 q))]

variable (X : Node ℝ 0 n) (H : Heap ℝ X.σ) (ease : Fade → ℝ → ℝ) (setRate : ℝ → X.σ → X.σ) (c : Cfg R X.σ)

/-- **C80.** The sound is the sum of all grains spawned. Each grain is heard from its start to its end, its unit plays from its beginning at the sample rate of the
synthesizer, and it is faded in and out by the power curve over the length of its envelope. -/
theorem C80_grains (fuel : Nat) (sr : ℝ) (hsr : 0 < sr) (seed ids m : Nat) (s : St R X.σ) (log : List (Grain X.σ)) (fs : List (Frame ℝ n))
    (h : St.run X H ease setRate c fuel (List.replicate m .tick) (St.new c sr seed ids) = .ok (s, log, fs)) :
    fs = (List.range m).map fun k ch => (log.map (grainPart X (ease .power) setRate sr k ch)).sum := by
  rw [C80_sound X H ease setRate c fuel sr hsr seed ids m s log fs h]
  apply List.map_congr_left
  intro k _
  funext ch
  have : ∀ (l : List (Grain X.σ)) (ids : Nat), (events ids l).map (part X ease setRate sr k ch) = l.map (grainPart X (ease .power) setRate sr k ch) := by
    intro l
    induction l with
    | nil => intro _; rfl
    | cons g l ih => intro ids; rw [events, List.map_cons, List.map_cons, ih, part_event]
  show ((events ids log).map _).sum = _
  rw [this]

/-- Specification. Limited to -1...1. -/
def limited (v : ℝ) : ℝ := if v < -1 then -1 else if 1 < v then 1 else v

theorem clamp11_eq (v : ℝ) : clamp11 v = limited v := by
  unfold clamp11 limited
  split_ifs with h1 h2
  · rw [min_eq_left (by linarith), max_eq_left (by linarith)]
  · rw [min_eq_right (by linarith), max_eq_right (by norm_num)]
  · rw [min_eq_left (by linarith), max_eq_right (by linarith)]

/-- **C80.** Every grain was made by the generator from the start time of the grain, in seconds and in beats, the place of its voice from -1 to 1, and three values of
the texture, each limited to -1...1. The texture is read at a point of a helix: once round per beat, once up per cycle, at a radius from the inner to the outer one
according to the voice, and moved along each axis by the jitter times a random number. The length of the grain, its envelope and its unit, up to a random phase, are
what the generator returned. -/
theorem C80_generator (fuel : Nat) (sr : ℝ) (hsr : 0 < sr) (seed ids : Nat) (ops : List (Op n)) (s : St R X.σ) (log : List (Grain X.σ)) (fs : List (Frame ℝ n))
    (h : St.run X H ease setRate c fuel ops (St.new c sr seed ids) = .ok (s, log, fs)) :
    ∀ g ∈ log, ∃ (place φ : ℝ) (r1 r2 r3 : R) (p : ℝ × ℝ × ℝ) (phase : Nat),
      (c.voices = 1 → place = 0) ∧ (1 < c.voices → place = -1 + 2 * (g.voice : ℝ) / (c.voices - 1)) ∧
      φ = Int.fract (g.start / (c.beatLength * c.beatsPerCycle)) ∧
      p = (Real.cos (2 * Real.pi * (φ * c.beatsPerCycle)) * (c.inner + (c.outer - c.inner) * ((place + 1) / 2)) + (2 * (c.f32 r1).1 - 1) * c.jitter,
        Real.sin (2 * Real.pi * (φ * c.beatsPerCycle)) * (c.inner + (c.outer - c.inner) * ((place + 1) / 2)) + (2 * (c.f32 r2).1 - 1) * c.jitter,
        φ + (2 * (c.f32 r3).1 - 1) * c.jitter) ∧
      ∃ u, c.generator g.start (g.start / c.beatLength) place (limited (c.texture p).1) (limited (c.texture p).2.1) (limited (c.texture p).2.2) = (g.len, g.env, u) ∧
        g.unit = c.ping phase u := by
  obtain ⟨d, -, d2, -⟩ := C80_chain X H ease setRate c fuel sr hsr seed ids ops s log fs h
  intro g hg
  obtain ⟨hv, -, -, r, m1, m2, m3⟩ := d2 g hg
  refine ⟨voiceD c g.voice * 2 - 1, _, r, (c.f32 r).2, (c.f32 (c.f32 r).2).2, (helix c g.voice g.start r).1, (c.u64 (request c g.voice g.start r).2).1, ?_, ?_, rfl, ?_,
    (request c g.voice g.start r).1.2.2, ?_, m3⟩
  · intro h1
    unfold voiceD
    rw [if_pos h1]; norm_num
  · intro h1
    unfold voiceD
    rw [if_neg (by omega), Nat.cast_sub (by omega)]
    push_cast
    ring
  · have e : (g.start - (⌊g.start / (c.beatLength * c.beatsPerCycle)⌋ : ℝ) * (c.beatLength * c.beatsPerCycle)) / (c.beatLength * c.beatsPerCycle) =
        Int.fract (g.start / (c.beatLength * c.beatsPerCycle)) := by
      by_cases hz : c.beatLength * c.beatsPerCycle = 0
      · rw [hz]; simp
      · rw [sub_div, mul_div_assoc, div_self hz, mul_one]; rfl
    unfold helix
    simp only [e, mul_one]
    refine Prod.ext ?_ (Prod.ext ?_ ?_)
    · simp only
      rw [mul_comm (2 * Real.pi)]
      ring_nf
    · simp only
      rw [mul_comm (2 * Real.pi)]
      ring_nf
    · simp only
      ring
  · rw [m1, m2]
    unfold request
    simp only [clamp11_eq]

theorem chain_next {a b : ℝ} {l1 l2 : List (Grain U)} {g g' : Grain U} (h : Chain a (l1 ++ g :: g' :: l2) b) : g'.start = g.start + g.len - g.env ∧ 0 ≤ g.env := by
  induction l1 generalizing a with
  | nil => exact ⟨h.2.2.2.1, h.2.1⟩
  | cons x l1 ih => exact ih h.2.2.2

/-- **C80.** Where two grains of a voice overlap, they are mixed at constant power, up to four parts in a thousand, if their envelopes are of the same length and
each grain is long enough for both of its fades. Between the fades a grain is heard at full volume. -/
theorem C80_power (fuel : Nat) (sr : ℝ) (hsr : 0 < sr) (seed ids : Nat) (ops : List (Op n)) (s : St R X.σ) (log : List (Grain X.σ)) (fs : List (Frame ℝ n))
    (h : St.run X H ease setRate c fuel ops (St.new c sr seed ids) = .ok (s, log, fs)) (v : Nat) (hv : v < c.voices) (l1 l2 : List (Grain X.σ)) (g g' : Grain X.σ)
    (hg : ofVoice v log = l1 ++ g :: g' :: l2) (he : g'.env = g.env) (h1 : 2 * g.env ≤ g.len) (h2 : 2 * g.env ≤ g'.len) (t : ℝ) :
    (g'.start ≤ t → t ≤ g.start + g.len →
      |grainGain Math.sineEase g.start g.len g.env t ^ 2 + grainGain Math.sineEase g'.start g'.len g'.env t ^ 2 - (if g.env = 0 then 2 else 1)| ≤ 4 / 1000) ∧
    (g.start + g.env ≤ t → t ≤ g'.start → grainGain Math.sineEase g.start g.len g.env t = 1) := by
  obtain ⟨d, -, -, d3⟩ := C80_chain X H ease setRate c fuel sr hsr seed ids ops s log fs h
  obtain ⟨b, -, hch⟩ := d3 v hv
  rw [hg] at hch
  obtain ⟨e1, e0⟩ := chain_next hch
  constructor
  · intro ht1 ht2
    rcases eq_or_lt_of_le e0 with hz | hz
    · unfold grainGain
      rw [he, ← hz, if_pos (Or.inl (le_refl _)), if_pos (Or.inl (le_refl _)), if_pos (Or.inl (le_refl _)), if_pos (Or.inl (le_refl _)), if_pos rfl]
      norm_num
    · rw [if_neg hz.ne']
      obtain ⟨x, hx⟩ : ∃ x, x = (t - g'.start) / g.env := ⟨_, rfl⟩
      have hx0 : 0 ≤ x := by rw [hx]; exact div_nonneg (by linarith) e0
      have hx1 : x ≤ 1 := by rw [hx, div_le_one hz]; linarith
      have k1 : grainGain Math.sineEase g.start g.len g.env t = Math.sineEase (1 - x) := by
        unfold grainGain
        rw [if_pos (Or.inr (by linarith)), one_mul]
        by_cases q : t ≤ g.start + g.len - g.env
        · rw [if_pos (Or.inr q)]
          have : x = 0 := by rw [hx, show t - g'.start = 0 by linarith, zero_div]
          rw [this, sub_zero, Math.C30_sine_ease.2.1]
        · rw [if_neg (by rintro (q' | q'); exacts [absurd q' (not_le.2 hz), q q'])]
          congr 1
          rw [hx, e1]; field_simp; ring
      have k2 : grainGain Math.sineEase g'.start g'.len g'.env t = Math.sineEase x := by
        unfold grainGain
        rw [he, if_pos (c := g.env ≤ 0 ∨ t ≤ g'.start + g'.len - g.env) (Or.inr (by linarith)), mul_one]
        by_cases q : g'.start + g.env ≤ t
        · rw [if_pos (Or.inr q)]
          have : x = 1 := le_antisymm hx1 (by rw [hx, le_div_iff₀ hz]; linarith)
          rw [this, Math.C30_sine_ease.2.1]
        · rw [if_neg (by rintro (q' | q'); exacts [absurd q' (not_le.2 hz), q q']), hx]
      rw [k1, k2, add_comm (Math.sineEase (1 - x) ^ 2)]
      exact (Math.C30_sine_ease.2.2.2 x ⟨hx0, hx1⟩).2
  · intro ht1 ht2
    unfold grainGain
    rw [if_pos (Or.inr ht1), if_pos (Or.inr (by linarith)), one_mul]

/-- One voice; grains of three seconds with fades of one second. -/
def solo : Cfg Nat Nat :=
  { voices := 1, beatLength := 1, beatsPerCycle := 1, inner := 0, outer := 1, jitter := 1, texture := id
    generator := fun _ _ _ _ _ _ => (3, 1, 0)
    seed := id, f32 := fun r => (0, r), u64 := fun r => (r, r + 1), ping := fun h _ => h }

/-- The theorems apply: four seconds of `solo` contain two grains, which overlap from the second second to the third. -/
example (H : Heap ℝ Nat) (setRate : ℝ → Nat → Nat) (ids : Nat) : ∃ s log fs,
    St.run hashNode H (fun _ => Math.sineEase) setRate solo 4 (List.replicate 4 .tick) (St.new solo 1 0 ids) = .ok (s, log, fs) ∧
    ∃ g g' l2, ofVoice 0 log = [] ++ g :: g' :: l2 ∧ g'.start = 2 ∧
      |grainGain Math.sineEase g.start g.len g.env 2.5 ^ 2 + grainGain Math.sineEase g'.start g'.len g'.env 2.5 ^ 2 - 1| ≤ 4 / 1000 := by
  have e : total (List.replicate 4 (Op.tick : Op 1)) 1 = 4 := by simp [total, Op.samples]
  obtain ⟨⟨s, log, fs⟩, h⟩ := C80_total hashNode H (fun _ => Math.sineEase) setRate solo 2
    ⟨by norm_num, fun _ _ _ _ _ _ => ⟨zero_le_one, by show (1 : ℝ) + 2 ≤ 3; norm_num⟩⟩ 1 one_pos 0 ids (List.replicate 4 .tick) 4 (by rw [e]; norm_num)
  refine ⟨s, log, fs, h, ?_⟩
  have hm : ∀ g ∈ log, g.len = 3 ∧ g.env = 1 := by
    intro g hg
    obtain ⟨_, _, _, _, _, _, _, _, _, _, _, u, h1, _⟩ := C80_generator hashNode H _ setRate solo 4 1 one_pos 0 ids _ s log fs h g hg
    obtain ⟨q1, q2⟩ := Prod.mk.inj h1
    exact ⟨q1.symm, (Prod.mk.inj q2).1.symm⟩
  obtain ⟨d, -, -, d3⟩ := C80_chain hashNode H _ setRate solo 4 1 one_pos 0 ids _ s log fs h
  obtain ⟨b, hb, hch⟩ := d3 0 Nat.one_pos
  rw [e] at hb
  have hmem : ∀ g ∈ ofVoice 0 log, g.len = 3 ∧ g.env = 1 := fun g hg => hm g (mem_ofVoice hg).2
  have hp := C80_power hashNode H (fun _ => Math.sineEase) setRate solo 4 1 one_pos 0 ids _ s log fs h 0 Nat.one_pos []
  generalize ofVoice 0 log = l at hch hmem hp
  have h0 : d * ((0 : ℕ) : ℝ) / ((solo.voices : ℕ) : ℝ) = 0 := by simp
  rw [h0] at hch
  match l, hch, hmem, hp with
  | [], hch, _, _ =>
    have : (0 : ℝ) = b := hch
    linarith
  | [g], hch, hmem, _ =>
    obtain ⟨q1, q2⟩ := hmem g (List.mem_singleton_self g)
    obtain ⟨c1, -, -, c2⟩ := hch
    have : g.start + g.len - g.env = b := c2
    linarith
  | g :: g' :: l2, hch, hmem, hp =>
    obtain ⟨q1, q2⟩ := hmem g (List.mem_cons_self ..)
    obtain ⟨q3, q4⟩ := hmem g' (List.mem_cons_of_mem _ (List.mem_cons_self ..))
    obtain ⟨c1, -, -, c2, -⟩ := hch
    refine ⟨g, g', l2, rfl, by linarith, ?_⟩
    have := (hp l2 g g' rfl (q4.trans q2.symm) (by linarith) (by linarith) 2.5).1 (by linarith) (by linarith)
    rwa [if_neg (by rw [q2]; norm_num)] at this

end Fundsp.Gran
