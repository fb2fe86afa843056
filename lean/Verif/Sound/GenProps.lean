import Verif.Sound.Gen
import Verif.Sound.Props

/-! **C101**: generated sounds. -/

noncomputable section
namespace Fundsp.Gen
open Fundsp Fundsp.Math

/-! ## Specification -/

/-- The frequency of a source. -/
def Source.freq : Source → ℝ
  | .wave _ f => f
  | .pulse f _ => f
  | .noisySine _ f => f
  | .overdrive f _ => f
  | .resonator f _ _ => f

/-- Parameters of sources are sensible. -/
def Source.Good : Source → Prop
  | .wave _ _ => True
  | .pulse _ w => 0.5 ≤ w ∧ w ≤ 0.98
  | .noisySine b _ => 1 ≤ b ∧ b ≤ 200
  | .overdrive _ h => 0.2 ≤ h ∧ h ≤ 10.1
  | .resonator f f' b => f' = f + 0.5 ∧ 2 ≤ b ∧ b ≤ 100

/-- Parameters of stages are sensible: cutoffs are audible, resonances moderate, delays positive. -/
def Stage.Good : Stage → Prop
  | .moog f q => 200 ≤ f ∧ f ≤ 20000 ∧ 0.25 ≤ q ∧ q ≤ 0.65
  | .bandpass f q => 100 ≤ f ∧ f ≤ 10000 ∧ 1 ≤ q ∧ q ≤ 4
  | .peak f q => 100 ≤ f ∧ f ≤ 10000 ∧ 2 ≤ q ∧ q ≤ 5
  | .softsign h => 0.2 ≤ h ∧ h ≤ 10.1
  | .comb t => 0.001 ≤ t ∧ t ≤ 0.020

/-! ## Lemmas -/

theorem sinHz_range (f t : ℝ) : -1 ≤ sinHz f t ∧ sinHz f t ≤ 1 := ⟨Real.neg_one_le_sin _, Real.sin_le_one _⟩

theorem xerp11_range {a b x : ℝ} (ha : 0 < a) (hab : a ≤ b) (hx : -1 ≤ x ∧ x ≤ 1) : a ≤ xerp11 a b x ∧ xerp11 a b x ≤ b := by
  have := (C31_xerp11 a b ha (by linarith)).2.2.1 x hx
  rwa [min_eq_left hab, max_eq_right hab] at this

theorem midiHz_pos (x : ℝ) : 0 < midiHz x := by unfold midiHz; positivity

theorem midiHz_mono {x y : ℝ} (h : x ≤ y) : midiHz x ≤ midiHz y := by
  unfold midiHz
  have : (2 : ℝ) ^ ((x - 69) / 12) ≤ 2 ^ ((y - 69) / 12) := Real.rpow_le_rpow_of_exponent_le (by norm_num) (by linarith)
  linarith

theorem scale_index {scale : List ℝ} (hs : scale ≠ []) {x : ℝ} (hx : -1 ≤ x ∧ x ≤ 1) :
    0 ≤ lerp11 0 (scale.length - 0.01) x ∧ ⌊lerp11 0 (scale.length - 0.01) x⌋₊ < scale.length := by
  have hl : (1 : ℝ) ≤ scale.length := by exact_mod_cast List.length_pos_of_ne_nil hs
  have e : lerp11 0 ((scale.length : ℝ) - 0.01) x = (scale.length - 0.01) * (x * (1 / 2) + 1 / 2) := by unfold lerp11 lerp; ring
  have h0 : 0 ≤ lerp11 0 ((scale.length : ℝ) - 0.01) x := by
    rw [e]; exact mul_nonneg (by linarith) (by linarith)
  refine ⟨h0, ?_⟩
  rw [Nat.floor_lt h0, e]
  nlinarith

/-! ## Theorems -/

/-- **C101, control.** A generated control envelope has values in 0...1, at every sample. -/
theorem C101_lfo (hash64a : BitVec 64 → BitVec 64) (rnd2 rnd : BitVec 64 → ℝ) (hr : ∀ h, 0 ≤ rnd h ∧ rnd h ≤ 1) {sr : ℝ} (hsr : 0 < sr) (hrate : 1 / sr ≤ 0.0015)
    (d : LfoDna) (hash : BitVec 64) (w : Nat → Frame ℝ 0) (k : Nat) :
    0 ≤ (lfoUnit hash64a rnd2 rnd d).stream (Env.newSt (fun t => (fun _ => lfoControl hash64a rnd2 d t)) 0.002 sr hash) w k 0 ∧
    (lfoUnit hash64a rnd2 rnd d).stream (Env.newSt (fun t => (fun _ => lfoControl hash64a rnd2 d t)) 0.002 sr hash) w k 0 ≤ 1 := by
  have hc : ∀ t, 0 ≤ lfoControl hash64a rnd2 d t ∧ lfoControl hash64a rnd2 d t ≤ 1 := by
    intro t
    cases d with
    | sine f o =>
      have := sinHz_range f (t + o)
      unfold lfoControl
      constructor <;> linarith
    | noise seed f =>
      have := abs_le.1 (C33_spline_noise hash64a rnd2 seed (t * f))
      unfold lfoControl
      constructor <;> linarith
  obtain ⟨a, b, u, h1, h2, h3, h4, h5, h6⟩ := Sound.lfo_interpolates rnd hr hsr hrate (fun t => (fun _ => lfoControl hash64a rnd2 d t : Frame ℝ 1)) hash w k
  have hu := Sound.weight_range h2 h3 h5
  have e : (lfoUnit hash64a rnd2 rnd d).stream (Env.newSt (fun t => (fun _ => lfoControl hash64a rnd2 d t)) 0.002 sr hash) w k 0 = _ := h6 0
  have ha := hc a
  have hb := hc b
  rw [e]
  constructor
  · have := mul_nonneg (sub_nonneg.2 hu.2) ha.1
    have := mul_nonneg hu.1 hb.1
    linarith
  · have := mul_le_mul_of_nonneg_left ha.2 (sub_nonneg.2 hu.2)
    have := mul_le_mul_of_nonneg_left hb.2 hu.1
    linarith

/-- **C101, effects.** Generated flangers and phasers are modulated within the range of their delays and phases. -/
theorem C101_effect (t : ℝ) : (0.005 ≤ flangerControl t ∧ flangerControl t ≤ 0.015) ∧ 0 ≤ phaserControl t ∧ phaserControl t ≤ 1 := by
  have := sinHz_range 0.1 t
  unfold flangerControl phaserControl lerp11 lerp
  refine ⟨⟨?_, ?_⟩, ?_, ?_⟩ <;> linarith

/-- **C101, grains.** Whatever the answers of the Dna, a generated granular synthesizer of one or two channels makes a grain at every time and for all inputs in -1...1, without failing, whether there is a
scale or not. (Other numbers of channels are refused.) -/
theorem C101_total (channels : Nat) (scale : List ℝ) (d : Dna) :
    ((channels = 1 ∨ channels = 2) ↔ ∃ f, genGranular channels scale d = some f) ∧
    ∀ f, genGranular channels scale d = some f → ∀ t v x y z, -1 ≤ x → x ≤ 1 → ∃ g, f t v x y z = some g := by
  unfold genGranular
  constructor
  · constructor
    · intro h; exact ⟨_, if_pos h⟩
    · rintro ⟨f, hf⟩
      by_contra hc
      rw [if_neg hc] at hf
      exact absurd hf (by simp)
  · intro f hf t v x y z h1 h2
    split_ifs at hf with hch
    obtain rfl := Option.some.inj hf
    unfold createGrain
    suffices h : ∃ p, pitch scale x = some p by
      obtain ⟨p, hp⟩ := h
      rw [hp]; exact ⟨_, rfl⟩
    unfold pitch
    split_ifs with hl
    · have := (scale_index (List.ne_nil_of_length_pos hl) ⟨h1, h2⟩).2
      simp only
      rw [List.getElem?_eq_getElem this]
      exact ⟨_, rfl⟩
    · exact ⟨_, rfl⟩

/-- **C101, grains.** All grains of a valid generated synthesizer have as many channels as asked for, a sensible length, fades that neither are empty nor overlap (as the granular synthesizer
asserts), and sensible parameters throughout; they are positioned within 0.8 of the center. -/
theorem C101_grain {channels : Nat} {scale : List ℝ} {d : Dna} (hd : d.Valid) {t v x y z : ℝ} (hv : -1 ≤ v ∧ v ≤ 1) (hy : -1 ≤ y ∧ y ≤ 1)
    (hz : -1 ≤ z ∧ z ≤ 1) {f : ℝ → ℝ → ℝ → ℝ → ℝ → Option Grain} (hf : genGranular channels scale d = some f) {g : Grain} (hg : f t v x y z = some g) :
    (if g.pan.isSome then 2 else 1) = channels ∧ (∀ p ∈ g.pan, -0.8 ≤ p ∧ p ≤ 0.8) ∧
    0.03 ≤ g.length ∧ g.length ≤ 0.1 ∧ 0 < g.envelope ∧ 2 * g.envelope ≤ g.length ∧
    0 < g.amp ∧ g.source.Good ∧ ∀ s ∈ g.stages, s.Good := by
  unfold genGranular at hf
  split_ifs at hf with hch
  obtain rfl := Option.some.inj hf
  unfold createGrain at hg
  obtain ⟨p, hp, rfl⟩ := Option.map_eq_some_iff.1 hg
  obtain ⟨l0, l1⟩ := hd.grainLength
  obtain ⟨e0, e1⟩ := hd.envelopeFraction
  obtain ⟨w0, w1⟩ := hd.stereoWidth
  have hamp : 0 < 0.1 / Real.sqrt d.voices := by
    have : (0 : ℝ) < d.voices := by exact_mod_cast lt_of_lt_of_le (by norm_num) hd.voices.1
    positivity
  have hsrc : ∀ f amp, 0 < amp → 0 < (source d f y amp).2 ∧ (source d f y amp).1.Good := by
    intro f amp ha
    have b1 := xerp11_range (a := 0.02) (b := 0.5) (by norm_num) (by norm_num) hy
    have b2 := xerp11_range (a := 1) (b := 200) (by norm_num) (by norm_num) hy
    have b3 := xerp11_range (a := 0.1) (b := 10) (by norm_num) (by norm_num) hy
    have b4 := xerp11_range (a := 2) (b := 100) (by norm_num) (by norm_num) hy
    unfold source
    cases d.choiceX
    · exact ⟨ha, trivial⟩
    · exact ⟨ha, by linarith, by linarith⟩
    · have : 0 < Real.sqrt (xerp11 1 200 y) := Real.sqrt_pos.2 (by linarith)
      exact ⟨by positivity, b2⟩
    · exact ⟨by positivity, rfl, b4⟩
    · refine ⟨div_pos ha (by linarith), ?_, ?_⟩ <;> linarith
  have hY : ∀ G : List Stage × ℝ, 0 < G.2 → (∀ s ∈ G.1, s.Good) → 0 < (stageY d y z G).2 ∧ ∀ s ∈ (stageY d y z G).1, s.Good := by
    intro G ha hG
    have b1 := xerp11_range (a := 0.1) (b := 2) (by norm_num) (by norm_num) hy
    have b2 := xerp11_range (a := 200) (b := 20000) (by norm_num) (by norm_num) hy
    unfold stageY
    split
    · exact ⟨mul_pos ha (by linarith), hG⟩
    · refine ⟨ha, fun s hs => ?_⟩
      rcases List.mem_append.1 hs with h | h
      · exact hG s h
      · rw [List.mem_singleton.1 h]
        refine ⟨b2.1, b2.2, ?_, ?_⟩ <;> unfold lerp11 lerp <;> linarith
    · exact ⟨ha, hG⟩
  have hZ : ∀ G : List Stage × ℝ, 0 < G.2 → (∀ s ∈ G.1, s.Good) → 0 < (stageZ d z G).2 ∧ ∀ s ∈ (stageZ d z G).1, s.Good := by
    intro G ha hG
    have b1 := xerp11_range (a := 0.1) (b := 2) (by norm_num) (by norm_num) hz
    have b2 := xerp11_range (a := 100) (b := 10000) (by norm_num) (by norm_num) hz
    have b3 := xerp11_range (a := 200) (b := 20000) (by norm_num) (by norm_num) hz
    have b4 := xerp11_range (a := 0.1) (b := 10) (by norm_num) (by norm_num) hz
    have add : ∀ st : Stage, st.Good → ∀ s ∈ G.1 ++ [st], s.Good := by
      intro st hst s hs
      rcases List.mem_append.1 hs with h | h
      · exact hG s h
      · rw [List.mem_singleton.1 h]; exact hst
    unfold stageZ
    split
    · exact ⟨mul_pos ha (by linarith), hG⟩
    · next h =>
      refine ⟨ha, add _ ⟨b2.1, b2.2, ?_⟩⟩
      unfold Dna.bq; rw [if_pos h]; exact hd.bandpassQ
    · next h =>
      refine ⟨by positivity, add _ ⟨b2.1, b2.2, ?_⟩⟩
      unfold Dna.pq; rw [if_pos h]; exact hd.peakQ
    · exact ⟨ha, add _ ⟨b3.1, b3.2, by norm_num, by norm_num⟩⟩
    · exact ⟨div_pos ha (by linarith), add _ ⟨by linarith, by linarith⟩⟩
    · exact ⟨ha, hG⟩
  have hC : ∀ G : List Stage × ℝ, 0 < G.2 → (∀ s ∈ G.1, s.Good) → 0 < (stageComb d y G).2 ∧ ∀ s ∈ (stageComb d y G).1, s.Good := by
    intro G ha hG
    have b1 := xerp11_range (a := 0.001) (b := 0.020) (by norm_num) (by norm_num) hy
    unfold stageComb
    split_ifs
    · refine ⟨by positivity, fun s hs => ?_⟩
      rcases List.mem_append.1 hs with h | h
      · exact hG s h
      · rw [List.mem_singleton.1 h]; exact b1
    · exact ⟨ha, hG⟩
  have s1 := hsrc (bent d t y p) _ hamp
  have s2 := hY ([], (source d (bent d t y p) y (0.1 / Real.sqrt d.voices)).2) s1.1 (fun s hs => by simp at hs)
  have s3 := hZ _ s2.1 s2.2
  have s4 := hC _ s3.1 s3.2
  refine ⟨?_, ?_, le_trans (by norm_num) l0, le_trans l1 (by norm_num), ?_, ?_, s4.1, s1.2, s4.2⟩
  · rcases hch with rfl | rfl <;> simp
  · intro q hq
    simp only at hq
    split_ifs at hq
    · obtain rfl := Option.some.inj hq
      constructor <;> nlinarith [hv.1, hv.2]
    · simp at hq
  · show 0 < d.grainLength * d.envelopeFraction
    have : 0 < d.grainLength := by linarith
    have : 0 < d.envelopeFraction := by linarith
    positivity
  · show 2 * (d.grainLength * d.envelopeFraction) ≤ d.grainLength
    nlinarith

/-- How the level of a grain makes up for its source: noise through a narrow band is made louder, overdriven sines quieter by their hardness. -/
def Source.level : Source → ℝ
  | .wave _ _ => 1
  | .pulse _ _ => 1
  | .noisySine b _ => 20 / Real.sqrt b
  | .overdrive _ h => 1 / h
  | .resonator _ _ _ => 1 / 2

/-- How it makes up for the stages. -/
def Stage.level : Stage → ℝ
  | .moog _ _ => 1
  | .bandpass _ _ => 1
  | .peak _ _ => 1 / 2
  | .softsign h => 1 / h
  | .comb _ => 1 / 2

/-- **C101, level.** The level of every grain is -20 dB over the square root of the number of voices, so that the power does not depend on that number, times what makes up for its source and
stages, times an amplification from 0.01 to 4, which is one if amplification was not chosen. -/
theorem C101_level {channels : Nat} {scale : List ℝ} {d : Dna} {t v x y z : ℝ} (hy : -1 ≤ y ∧ y ≤ 1)
    (hz : -1 ≤ z ∧ z ≤ 1) {f : ℝ → ℝ → ℝ → ℝ → ℝ → Option Grain} (hf : genGranular channels scale d = some f) {g : Grain} (hg : f t v x y z = some g) :
    ∃ a, 0.01 ≤ a ∧ a ≤ 4 ∧ (d.choiceY ≠ .amplification → d.choiceZ ≠ .amplification → a = 1) ∧
      g.amp = 0.1 / Real.sqrt d.voices * g.source.level * (g.stages.map Stage.level).prod * a := by
  unfold genGranular at hf
  split_ifs at hf with hch
  obtain rfl := Option.some.inj hf
  unfold createGrain at hg
  obtain ⟨p, hp, rfl⟩ := Option.map_eq_some_iff.1 hg
  have hY : ∀ G : List Stage × ℝ, ∃ a, 0.1 ≤ a ∧ a ≤ 2 ∧ (d.choiceY ≠ .amplification → a = 1) ∧
      ∀ q, G.2 = q * (G.1.map Stage.level).prod → (stageY d y z G).2 = q * ((stageY d y z G).1.map Stage.level).prod * a := by
    intro G
    have b1 := xerp11_range (a := 0.1) (b := 2) (by norm_num) (by norm_num) hy
    unfold stageY
    split
    · next h =>
      refine ⟨_, b1.1, b1.2, fun hn => ?_, fun q hq => by rw [hq]⟩
      unfold Dna.y at h
      split at h
      · exact absurd h hn
      · cases h
    · refine ⟨1, by norm_num, by norm_num, fun _ => rfl, fun q hq => ?_⟩
      simp only [List.map_append, List.map_cons, List.map_nil, List.prod_append, List.prod_singleton, Stage.level, hq]
      ring
    · exact ⟨1, by norm_num, by norm_num, fun _ => rfl, fun q hq => by rw [hq, mul_one]⟩
  have hZ : ∀ G : List Stage × ℝ, ∃ a, 0.1 ≤ a ∧ a ≤ 2 ∧ (d.choiceZ ≠ .amplification → a = 1) ∧
      ∀ q, G.2 = q * (G.1.map Stage.level).prod → (stageZ d z G).2 = q * ((stageZ d z G).1.map Stage.level).prod * a := by
    intro G
    have b1 := xerp11_range (a := 0.1) (b := 2) (by norm_num) (by norm_num) hz
    unfold stageZ
    split
    · next h =>
      refine ⟨_, b1.1, b1.2, fun hn => ?_, fun q hq => by rw [hq]⟩
      unfold Dna.z at h
      split at h
      · cases h
      · exact absurd h hn
    all_goals
      refine ⟨1, by norm_num, by norm_num, fun _ => rfl, fun q hq => ?_⟩
      simp only [List.map_append, List.map_cons, List.map_nil, List.prod_append, List.prod_singleton, Stage.level, hq]
      ring
  have hC : ∀ (G : List Stage × ℝ) (q : ℝ), G.2 = q * (G.1.map Stage.level).prod → (stageComb d y G).2 = q * ((stageComb d y G).1.map Stage.level).prod := by
    intro G q hq
    unfold stageComb
    split_ifs
    · simp only [List.map_append, List.map_cons, List.map_nil, List.prod_append, List.prod_singleton, Stage.level, hq]
      ring
    · exact hq
  have hS : ∀ f amp, (source d f y amp).2 = amp * (source d f y amp).1.level := by
    intro f amp
    unfold source
    cases d.choiceX <;> simp only [Source.level] <;> ring
  obtain ⟨a, a0, a1, a2, a3⟩ := hY ([], (source d (bent d t y p) y (0.1 / Real.sqrt d.voices)).2)
  obtain ⟨b, b0, b1, b2, b3⟩ := hZ (stageY d y z ([], (source d (bent d t y p) y (0.1 / Real.sqrt d.voices)).2))
  have e1 := a3 (0.1 / Real.sqrt d.voices * (source d (bent d t y p) y (0.1 / Real.sqrt d.voices)).1.level) (by rw [List.map_nil, List.prod_nil, mul_one]; exact hS _ _)
  have e2 := b3 (0.1 / Real.sqrt d.voices * (source d (bent d t y p) y (0.1 / Real.sqrt d.voices)).1.level * a) (by rw [e1]; ring)
  have e3 := hC _ (0.1 / Real.sqrt d.voices * (source d (bent d t y p) y (0.1 / Real.sqrt d.voices)).1.level * a * b) (by rw [e2]; ring)
  refine ⟨a * b, by nlinarith, by nlinarith, fun h1 h2 => by rw [a2 h1, b2 h2, mul_one], ?_⟩
  show (stageComb d y _).2 = _
  rw [e3]
  ring

/-- An overdriven sine through a peak filter, of 25 voices. -/
def loud : Dna := ⟨0.05, 0.4, 25, 0.05, 0.15, 0.5, .overdriveSine, .saw, .vibrato, 0.5, .peakFilter, 2, 3, 0.5⟩

example : ∃ g h, createGrain 1 [] loud 0 0 0 1 0 = some g ∧ g.source.level = 1 / h ∧ h = 0.1 + xerp11 0.1 10 1 ∧ g.stages.map Stage.level = [1 / 2] ∧
    g.amp = 0.1 / Real.sqrt (25 : ℕ) * (1 / h) * ([1 / 2] : List ℝ).prod * 1 := by
  obtain ⟨f, hf⟩ := (C101_total 1 [] loud).1.1 (Or.inl rfl)
  obtain ⟨g, hg⟩ := (C101_total 1 [] loud).2 f hf 0 0 0 1 0 (by norm_num) (by norm_num)
  obtain ⟨a, -, -, ha, h⟩ := C101_level (y := 1) (z := 0) (by norm_num) (by norm_num) hf hg
  obtain rfl := Option.some.inj hf
  obtain rfl := Option.some.inj hg
  rw [ha (by decide) (by decide)] at h
  exact ⟨_, _, rfl, rfl, rfl, rfl, h⟩

theorem source_freq (d : Dna) (f y amp : ℝ) : (source d f y amp).1.freq = f := by
  unfold source
  cases d.choiceX <;> rfl

/-- Vibrato bends the pitch by an octave at most. -/
theorem bent_range {d : Dna} (hd : d.Valid) (t : ℝ) {y : ℝ} (f : ℝ) : ∃ r, 1 / 2 ≤ r ∧ r ≤ 2 ∧ (d.y ≠ .vibrato → r = 1) ∧ bent d t y f = f * r := by
  by_cases h : d.y = .vibrato
  · have hs : 1 ≤ semitoneRatio 0.2 ∧ semitoneRatio 0.2 ≤ 2 := by
      unfold semitoneRatio
      refine ⟨Real.one_le_rpow (by norm_num) (by norm_num), ?_⟩
      calc (2 : ℝ) ^ (0.2 * (1 / 12) : ℝ) ≤ 2 ^ (1 : ℝ) := Real.rpow_le_rpow_of_exponent_le (by norm_num) (by norm_num)
        _ = 2 := Real.rpow_one 2
    have hdep : 1 ≤ d.depth ∧ d.depth ≤ 2 := by
      obtain ⟨v0, v1⟩ := hd.vibratoX
      have := (C31_xerp (semitoneRatio 0.2) 2 (by linarith) (by norm_num)).2.2.2.2.1 (d.vibratoX * d.vibratoX) ⟨by positivity, by nlinarith⟩
      rw [min_eq_left hs.2, max_eq_right hs.2] at this
      unfold Dna.depth
      rw [h]
      exact ⟨hs.1.trans this.1, this.2⟩
    obtain ⟨r, hr⟩ : ∃ r, r = max 1 (min d.depth (xerp11 (1 / d.depth) d.depth y)) := ⟨_, rfl⟩
    have hr1 : 1 ≤ r := by rw [hr]; exact le_max_left _ _
    have hr2 : r ≤ 2 := by rw [hr]; exact max_le (by norm_num) ((min_le_left _ _).trans hdep.2)
    have hinv : 1 / r ≤ r := by rw [div_le_iff₀ (by linarith)]; nlinarith
    have hx := (C31_xerp11 r (1 / r) (by linarith) (by positivity)).2.2.1 (sinHz 6 t) (sinHz_range 6 t)
    rw [min_eq_right hinv, max_eq_left hinv] at hx
    refine ⟨xerp11 r (1 / r) (sinHz 6 t), le_trans ?_ hx.1, hx.2.trans hr2, fun hn => absurd h hn, ?_⟩
    · exact one_div_le_one_div_of_le (by linarith) hr2
    · unfold bent
      rw [h, hr]
  · refine ⟨1, by norm_num, by norm_num, fun _ => rfl, ?_⟩
    unfold bent
    split
    · next h' => exact absurd h' h
    · rw [mul_one]

/-- **C101, pitch.** The scale of MIDI pitches is used if it is not empty: without vibrato, the frequency of every grain is within a hundredth of a semitone of one of the pitches, and every
pitch of the scale is played, exactly in tune, for some value of the texture. Without a scale the frequency is from C2 to C8. Vibrato changes it by no more than an octave up or down. -/
theorem C101_pitch {channels : Nat} {scale : List ℝ} {d : Dna} (hd : d.Valid) {f : ℝ → ℝ → ℝ → ℝ → ℝ → Option Grain} (hf : genGranular channels scale d = some f) :
    (∀ t v x y z g, -1 ≤ x → x ≤ 1 → f t v x y z = some g → ∃ p r : ℝ,
      (scale ≠ [] → ∃ s ∈ scale, s - 0.01 ≤ p ∧ p ≤ s + 0.01) ∧ (scale = [] → 36 ≤ p ∧ p ≤ 108) ∧
      1 / 2 ≤ r ∧ r ≤ 2 ∧ (d.choiceX ≠ .oscillator ∨ d.choiceY ≠ .vibrato → r = 1) ∧ g.source.freq = 440 * 2 ^ ((p - 69) / 12) * r) ∧
    (d.choiceX ≠ .oscillator ∨ d.choiceY ≠ .vibrato → ∀ s ∈ scale, ∃ x, -1 ≤ x ∧ x ≤ 1 ∧ ∀ t v y z, ∃ g, f t v x y z = some g ∧ g.source.freq = 440 * 2 ^ ((s - 69) / 12)) := by
  unfold genGranular at hf
  split_ifs at hf with hch
  obtain rfl := Option.some.inj hf
  have hvib : d.choiceX ≠ .oscillator ∨ d.choiceY ≠ .vibrato → d.y ≠ .vibrato := by
    unfold Dna.y
    cases d.choiceX <;> simp
  constructor
  · intro t v x y z g h1 h2 hg
    unfold createGrain at hg
    obtain ⟨p, hp, rfl⟩ := Option.map_eq_some_iff.1 hg
    obtain ⟨r, r1, r2, r3, r4⟩ := bent_range hd t (y := y) p
    have hfreq : ∀ q, p = midiHz q → (source d (bent d t y p) y (0.1 / Real.sqrt d.voices)).1.freq = 440 * 2 ^ ((q - 69) / 12) * r := by
      intro q hq
      rw [source_freq, r4, hq]; rfl
    unfold pitch at hp
    split_ifs at hp with hl
    · have hne := List.ne_nil_of_length_pos hl
      have hi := (scale_index hne ⟨h1, h2⟩).2
      simp only at hp
      rw [List.getElem?_eq_getElem hi] at hp
      have hp := (Option.some.inj hp).symm
      refine ⟨_, r, fun _ => ⟨_, List.getElem_mem hi, ?_, ?_⟩, fun h => absurd h hne, r1, r2, fun h => r3 (hvib h), hfreq _ hp⟩
      · have := abs_le.1 (abs_sub_round (lerp11 0 ((scale.length : ℝ) - 0.01) x)); linarith
      · have := abs_le.1 (abs_sub_round (lerp11 0 ((scale.length : ℝ) - 0.01) x)); linarith
    · have hnil : scale = [] := List.length_eq_zero_iff.1 (by omega)
      have hp := (Option.some.inj hp).symm
      have e : p = midiHz (lerp11 36 108 x) := by
        rw [hp]
        unfold xerp11 midiHz lerp11
        have hlog : ∀ m : ℝ, Real.log (440 * (2 : ℝ) ^ ((m - 69) / 12)) = Real.log 440 + (m - 69) / 12 * Real.log 2 := by
          intro m
          rw [Real.log_mul (by norm_num) (by positivity), Real.log_rpow (by norm_num)]
        rw [hlog, hlog, Real.rpow_def_of_pos (by norm_num)]
        have : (440 : ℝ) = Real.exp (Real.log 440) := (Real.exp_log (by norm_num)).symm
        rw [this, ← Real.exp_add, Real.log_exp]
        congr 1
        unfold lerp
        ring
      refine ⟨lerp11 36 108 x, r, fun h => absurd hnil h, fun _ => ?_, r1, r2, fun h => r3 (hvib h), hfreq _ e⟩
      unfold lerp11 lerp
      constructor <;> linarith
  · intro hno s hs
    obtain ⟨i, hi, rfl⟩ := List.getElem_of_mem hs
    have hl : (i : ℝ) + 1 ≤ scale.length := by exact_mod_cast hi
    have hi0 : (0 : ℝ) ≤ i := Nat.cast_nonneg _
    have hL : (0 : ℝ) < scale.length - 0.01 := by linarith
    have hx : lerp11 0 ((scale.length : ℝ) - 0.01) (2 * (i / (scale.length - 0.01)) - 1) = i := by
      unfold lerp11 lerp
      field_simp
      ring
    have b0 : 0 ≤ (i : ℝ) / (scale.length - 0.01) := by positivity
    have b1 : (i : ℝ) / (scale.length - 0.01) ≤ 1 := by rw [div_le_one hL]; linarith
    refine ⟨2 * (i / (scale.length - 0.01)) - 1, by linarith, by linarith, fun t v y z => ?_⟩
    have hp : pitch scale (2 * (i / (scale.length - 0.01)) - 1) = some (midiHz scale[i]) := by
      unfold pitch
      rw [if_pos (show scale.length > 0 by omega)]
      simp only [hx]
      rw [Nat.floor_natCast, List.getElem?_eq_getElem hi]
      simp
    obtain ⟨r, -, -, r3, r4⟩ := bent_range hd t (y := y) (midiHz scale[i])
    refine ⟨_, by unfold createGrain; rw [hp]; rfl, ?_⟩
    show (source d (bent d t y (midiHz scale[i])) y _).1.freq = _
    rw [source_freq, r4, r3 (hvib hno), mul_one]
    rfl

/-- There are valid answers. -/
example : Dna.Valid ⟨0.05, 0.4, 20, 0.05, 0.15, 0.5, .oscillator, .saw, .vibrato, 0.5, .peakFilter, 2, 3, 0.5⟩ := by
  constructor <;> first | (intro h; cases h; done) | norm_num

example : ∃ f, genGranular 2 [60, 64, 67] ⟨0.05, 0.4, 20, 0.05, 0.15, 0.5, .oscillator, .saw, .combFilter, 0.5, .peakFilter, 2, 3, 0.5⟩ = some f :=
  (C101_total 2 _ _).1.1 (Or.inr rfl)

end Fundsp.Gen
