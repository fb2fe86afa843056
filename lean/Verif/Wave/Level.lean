import Verif.Wave.Render
import Verif.Math.Props

/-!
# Levels and fades of waves: property C59

Model of `amplitude`, `amplify`, `normalize`, `fade_in`, `fade_out` and `fade` (`/repo/src/wave.rs:320-427`). Samples are real numbers.
-/

noncomputable section
namespace Fundsp.Wv

open Math

/-- `duration`: `wave.rs:280-282`. -/
def Wave.duration {α : Type} (w : Wave α) : ℝ := w.len / w.rate

/-- `amplitude`: `wave.rs:329-337`. -/
def Wave.amplitude (w : Wave ℝ) : Option ℝ :=
  forRange 0 w.channels (fun c peak => forRange 0 w.len (fun k peak => (w.at? c k).map fun x => max peak |x|) peak) 0

/-- `for channel in 0..channels { for i in 0..length { set(channel, i, at(channel, i) * z) } }`. -/
def scaleAll (z : ℝ) (w : Wave ℝ) : Option (Wave ℝ) :=
  forRange 0 w.channels (fun c w' => forRange 0 w.len (fun k w' => (w'.at? c k).bind fun x => w'.set c k (x * z)) w') w

/-- `amplify`: `wave.rs:340-346`. -/
def Wave.amplify (w : Wave ℝ) (amplitude : ℝ) : Option (Wave ℝ) := scaleAll amplitude w

open Classical in
/-- `normalize`: `wave.rs:357-368`. -/
def Wave.normalize (w : Wave ℝ) : Option (Wave ℝ) :=
  w.amplitude.bind fun a => if a = 0 ∨ a = 1 then some w else scaleAll (1 / a) w

/-- `for channel in 0..channels { set(channel, k, at(channel, k) * a) }`. -/
def scaleFrame (k : Nat) (a : ℝ) (w : Wave ℝ) : Option (Wave ℝ) :=
  forRange 0 w.channels (fun c w' => (w'.at? c k).bind fun x => w'.set c k (x * a)) w

/-- `fade_in`: `wave.rs:380-389`. -/
def Wave.fadeIn (w : Wave ℝ) (time : ℝ) : Option (Wave ℝ) :=
  let n := roundNat (min time w.duration * w.rate)
  forRange 0 n (fun k w' => scaleFrame k (smooth5 (((k + 1 : Nat) : ℝ) / ((n : ℝ) + 1))) w') w

/-- `fade_out`: `wave.rs:401-412`. -/
def Wave.fadeOut (w : Wave ℝ) (time : ℝ) : Option (Wave ℝ) :=
  let n := roundNat (min time w.duration * w.rate)
  forRange 0 n (fun k w' => if n ≤ w.len then scaleFrame (w.len - n + k) (smooth5 (((n : ℝ) - k) / ((n : ℝ) + 1))) w' else none) w

/-- `fade`: `wave.rs:424-427`. -/
def Wave.fade (w : Wave ℝ) (time : ℝ) : Option (Wave ℝ) := (w.fadeIn time).bind fun w => w.fadeOut time

/-! ## Helper lemmas -/

variable {rate : ℝ} {n len : Nat} {f : Nat → Nat → ℝ}

theorem tab_scaleFrame {k : Nat} (hk : k < len) (a : ℝ) : scaleFrame k a (tab rate n len f) = some (tab rate n len fun c i => if i = k then f c i * a else f c i) := by
  unfold scaleFrame
  rw [tab_channels]
  obtain ⟨y, hy, hI⟩ := forRange_spec
    (I := fun c x => x = tab rate n len (fun c' i => if i = k ∧ c' < c then f c' i * a else f c' i))
    (f := fun c w' => (w'.at? c k).bind fun x => w'.set c k (x * a)) (a := 0) (b := n) (x := tab rate n len f)
    (by
      intro c _ hc x hx
      rw [hx, tab_at, if_pos ⟨hc, hk⟩]
      refine ⟨_, tab_set hc hk _, ?_⟩
      apply tab_congr
      intro c' i _ _
      by_cases h1 : c' = c ∧ i = k
      · rw [if_pos h1, if_neg (by omega), if_pos (by omega), h1.1, h1.2]
      · rw [if_neg h1]
        by_cases h2 : i = k ∧ c' < c
        · rw [if_pos h2, if_pos (by omega)]
        · rw [if_neg h2, if_neg (by omega)]) (Nat.zero_le _)
    (by
      apply tab_congr
      intro c' k _ _
      simp)
  rw [hy, hI]
  congr 1
  apply tab_congr
  intro c i hc _
  by_cases h : i = k
  · rw [if_pos ⟨h, hc⟩, if_pos h]
  · rw [if_neg (by tauto), if_neg h]

theorem tab_scaleAll (z : ℝ) : scaleAll z (tab rate n len f) = some (tab rate n len fun c i => f c i * z) := by
  unfold scaleAll
  rw [tab_channels]
  obtain ⟨y, hy, hI⟩ := forRange_spec
    (I := fun c x => x = tab rate n len (fun c' k => if c' < c then f c' k * z else f c' k))
    (f := fun c w' => forRange 0 len (fun k w' => (w'.at? c k).bind fun x => w'.set c k (x * z)) w') (a := 0) (b := n) (x := tab rate n len f)
    (by
      intro c _ hc x hx
      obtain ⟨y, hy, hI⟩ := forRange_spec
        (I := fun j x => x = tab rate n len (fun c' k => if c' < c ∨ c' = c ∧ k < j then f c' k * z else f c' k))
        (f := fun k w' => (w'.at? c k).bind fun x => w'.set c k (x * z)) (a := 0) (b := len) (x := x)
        (by
          intro j _ hj x hx
          rw [hx, tab_at, if_pos ⟨hc, by omega⟩]
          refine ⟨_, tab_set hc hj _, ?_⟩
          apply tab_congr
          intro c' k hc' hk
          by_cases h1 : c' = c ∧ k = j
          · rw [if_pos h1, if_neg (by omega), if_pos (by omega), h1.1, h1.2]
          · rw [if_neg h1]
            by_cases h2 : c' < c ∨ c' = c ∧ k < j
            · rw [if_pos h2, if_pos (by omega)]
            · rw [if_neg h2, if_neg (by omega)]) (Nat.zero_le _)
        (by
          rw [hx]
          apply tab_congr
          intro c' k _ _
          simp)
      refine ⟨y, hy, ?_⟩
      rw [hI]
      apply tab_congr
      intro c' k _ hk
      by_cases h1 : c' < c + 1
      · rw [if_pos h1, if_pos (by omega)]
      · rw [if_neg h1, if_neg (by omega)]) (Nat.zero_le _)
    (by
      apply tab_congr
      intro c' k _ _
      simp)
  refine hy.trans ?_
  rw [hI]
  congr 1
  apply tab_congr
  intro c k hc _
  rw [if_pos hc]

/-- Scaling consecutive frames. -/
theorem tab_scaleFrames {off m : Nat} (h : off + m ≤ len) (a : Nat → ℝ) :
    forRange 0 m (fun k w' => scaleFrame (off + k) (a k) w') (tab rate n len f) = some (tab rate n len fun c i => if off ≤ i ∧ i < off + m then f c i * a (i - off) else f c i) := by
  obtain ⟨y, hy, hI⟩ := forRange_spec
    (I := fun j x => x = tab rate n len (fun c i => if off ≤ i ∧ i < off + j then f c i * a (i - off) else f c i))
    (f := fun k w' => scaleFrame (off + k) (a k) w') (a := 0) (b := m) (x := tab rate n len f)
    (by
      intro j _ hj x hx
      rw [hx]
      refine ⟨_, tab_scaleFrame (by omega) _, ?_⟩
      apply tab_congr
      intro c i _ _
      by_cases h1 : i = off + j
      · rw [if_pos h1, if_neg (by omega), if_pos (by omega), show i - off = j by omega]
      · rw [if_neg h1]
        by_cases h2 : off ≤ i ∧ i < off + j
        · rw [if_pos h2, if_pos (by omega)]
        · rw [if_neg h2, if_neg (by omega)]) (Nat.zero_le _)
    (by
      apply tab_congr
      intro c i _ _
      rw [if_neg (by omega)])
  rw [hy, hI]

theorem tab_amplitude : ∃ a, (tab rate n len f).amplitude = some a ∧ 0 ≤ a ∧ (∀ c k, c < n → k < len → |f c k| ≤ a) ∧ (a = 0 ∨ ∃ c k, c < n ∧ k < len ∧ |f c k| = a) := by
  unfold Wave.amplitude
  rw [tab_channels]
  obtain ⟨y, hy, hI⟩ := forRange_spec
    (I := fun c (a : ℝ) => 0 ≤ a ∧ (∀ c' k, c' < c → k < len → |f c' k| ≤ a) ∧ (a = 0 ∨ ∃ c' k, c' < n ∧ k < len ∧ |f c' k| = a))
    (f := fun c peak => forRange 0 len (fun k peak => ((tab rate n len f).at? c k).map fun x => max peak |x|) peak) (a := 0) (b := n) (x := 0)
    (by
      intro c _ hc x ⟨h0, h1, h2⟩
      obtain ⟨y, hy, k0, k1, k2, k3⟩ := forRange_spec
        (I := fun j (a : ℝ) => 0 ≤ a ∧ (∀ c' k, c' < c → k < len → |f c' k| ≤ a) ∧ (∀ k, k < j → |f c k| ≤ a) ∧ (a = 0 ∨ ∃ c' k, c' < n ∧ k < len ∧ |f c' k| = a))
        (f := fun k peak => ((tab rate n len f).at? c k).map fun x => max peak |x|) (a := 0) (b := len) (x := x)
        (by
          intro j _ hj x ⟨h0, h1, h2, h3⟩
          rw [tab_at, if_pos ⟨hc, hj⟩]
          refine ⟨_, rfl, le_max_of_le_left h0, fun c' k hc' hk => le_max_of_le_left (h1 c' k hc' hk), fun k hk => ?_, ?_⟩
          · rcases Nat.lt_succ_iff_lt_or_eq.1 hk with hk | rfl
            · exact le_max_of_le_left (h2 k hk)
            · exact le_max_right _ _
          · show max x |f c j| = 0 ∨ ∃ c' k, c' < n ∧ k < len ∧ |f c' k| = max x |f c j|
            rcases max_choice x |f c j| with h | h
            · rw [h]; exact h3
            · rw [h]; exact Or.inr ⟨c, j, hc, hj, rfl⟩) (Nat.zero_le _)
        ⟨h0, h1, fun k hk => by omega, h2⟩
      refine ⟨y, hy, k0, fun c' k hc' hk => ?_, k3⟩
      rcases Nat.lt_succ_iff_lt_or_eq.1 hc' with hc' | rfl
      · exact k1 c' k hc' hk
      · exact k2 k hk) (Nat.zero_le _)
    ⟨le_refl _, fun c k hc => by omega, Or.inl rfl⟩
  exact ⟨y, hy, hI⟩

theorem _root_.Fundsp.Wv.Wave.Wf.zero {α : Type} {w : Wave α} (h : w.Wf) : w.channels = 0 → w.len = 0 := fun h0 => h.2 (List.eq_nil_of_length_eq_zero h0)

/-! ## Property theorems -/

/-- The largest magnitude of the samples of a wave; zero for an empty wave. -/
structure IsPeak (w : Wave ℝ) (a : ℝ) : Prop where
  nonneg : 0 ≤ a
  bound : ∀ c k x, w.at? c k = some x → |x| ≤ a
  attained : a = 0 ∨ ∃ c k x, w.at? c k = some x ∧ |x| = a

theorem made_tab {w : Wave ℝ} (hw : w.Wf) : ∃ f, w = tab w.rate w.channels w.len f ∧ ∀ c k, w.at? c k = if c < w.channels ∧ k < w.len then some (f c k) else none := by
  have e := wf_tab hw
  exact ⟨_, e, fun c k => (congrArg (fun w => Wave.at? w c k) e).trans (tab_at _ _ _ _ _ _)⟩

/-- **C59, amplitude.** -/
theorem C59_amplitude {w : Wave ℝ} (hw : w.Wf) : ∃ a, w.amplitude = some a ∧ IsPeak w a := by
  obtain ⟨f, e, hat⟩ := made_tab hw
  obtain ⟨a, h, h0, h1, h2⟩ := tab_amplitude (rate := w.rate) (n := w.channels) (len := w.len) (f := f)
  refine ⟨a, (congrArg Wave.amplitude e).trans h, h0, fun c k x hx => ?_, ?_⟩
  · rw [hat] at hx
    split at hx
    · rename_i hck; cases hx; exact h1 c k hck.1 hck.2
    · cases hx
  · rcases h2 with h2 | ⟨c, k, hc, hk, h2⟩
    · exact Or.inl h2
    · exact Or.inr ⟨c, k, f c k, by rw [hat, if_pos ⟨hc, hk⟩], h2⟩

/-- **C59, amplify.** -/
theorem C59_amplify {w : Wave ℝ} (hw : w.Wf) (z : ℝ) :
    ∃ w', w.amplify z = some w' ∧ w'.Wf ∧ w'.channels = w.channels ∧ w'.len = w.len ∧ ∀ c k, w'.at? c k = (w.at? c k).map (· * z) := by
  obtain ⟨f, e, hat⟩ := made_tab hw
  refine ⟨_, (congrArg (fun w => Wave.amplify w z) e).trans (tab_scaleAll z), tab_wf hw.zero, tab_channels _ _ _ _, rfl, fun c k => ?_⟩
  rw [tab_at, hat]
  split <;> rfl

/-- **C59, normalize.** The wave is multiplied by one positive factor so that its peak is exactly one, unless it is silent, in which case nothing changes. -/
theorem C59_normalize {w : Wave ℝ} (hw : w.Wf) :
    ∃ w', w.normalize = some w' ∧ w'.Wf ∧ w'.channels = w.channels ∧ w'.len = w.len ∧
      (IsPeak w 0 → w' = w) ∧ (¬ IsPeak w 0 → IsPeak w' 1) ∧ ∃ z, 0 < z ∧ ∀ c k, w'.at? c k = (w.at? c k).map (· * z) := by
  obtain ⟨a, ha, hp⟩ := C59_amplitude hw
  have uniq : ∀ b, IsPeak w b → a ≤ b := by
    intro b hb
    rcases hp.attained with h | ⟨c, k, x, hx, h⟩
    · rw [h]; exact hb.nonneg
    · rw [← h]; exact hb.bound c k x hx
  unfold Wave.normalize
  rw [ha, Option.bind_some]
  have hid : ∀ c k, w.at? c k = (w.at? c k).map (· * (1 : ℝ)) := by intro c k; simp
  by_cases h0 : a = 0
  · rw [if_pos (Or.inl h0)]
    exact ⟨w, rfl, hw, rfl, rfl, fun _ => rfl, fun h => absurd (h0 ▸ hp) h, 1, one_pos, hid⟩
  · by_cases h1 : a = 1
    · rw [if_pos (Or.inr h1)]
      exact ⟨w, rfl, hw, rfl, rfl, fun _ => rfl, fun _ => h1 ▸ hp, 1, one_pos, hid⟩
    · rw [if_neg (by tauto)]
      have hpos : 0 < a := lt_of_le_of_ne hp.nonneg (Ne.symm h0)
      obtain ⟨w', hw', e0, e1, e2, e3⟩ := C59_amplify hw (1 / a)
      refine ⟨w', hw', e0, e1, e2, fun h => ?_, fun _ => ⟨zero_le_one, ?_, ?_⟩, 1 / a, by positivity, e3⟩
      · exact absurd (le_antisymm (uniq 0 h) hp.nonneg) h0
      · intro c k x hx
        rw [e3] at hx
        cases hv : w.at? c k with
        | none => rw [hv] at hx; cases hx
        | some v =>
          rw [hv] at hx; cases hx
          have := hp.bound c k v hv
          rw [abs_mul, abs_of_pos (show 0 < 1 / a by positivity), mul_one_div, div_le_one hpos]
          exact this
      · right
        rcases hp.attained with h | ⟨c, k, v, hv, h⟩
        · exact absurd h h0
        · refine ⟨c, k, v * (1 / a), by rw [e3, hv]; rfl, ?_⟩
          rw [abs_mul, abs_of_pos (show 0 < 1 / a by positivity), mul_one_div, h, div_self h0]

/-- The number of samples in a fade. -/
theorem fade_count {w : Wave ℝ} (hr : 0 < w.rate) (time : ℝ) : roundNat (min time w.duration * w.rate) = min (roundNat (time * w.rate)) w.len := by
  have hmin : min time w.duration * w.rate = min (time * w.rate) w.len := by
    unfold Wave.duration
    rw [min_mul_of_nonneg _ _ hr.le, div_mul_cancel₀ _ hr.ne']
  rw [hmin]
  rcases le_total (time * w.rate) w.len with h | h
  · rw [min_eq_left h, min_eq_left]
    have := roundNat_nat w.len
    rw [← this]
    exact Nat.floor_le_floor (by linarith)
  · rw [min_eq_right h, min_eq_right, roundNat_nat]
    have := roundNat_nat w.len
    conv_lhs => rw [← this]
    exact Nat.floor_le_floor (by linarith)

theorem smooth5_gain {x y : ℝ} (hx : 0 < x) (hxy : x < y) : 0 < smooth5 (x / y) ∧ smooth5 (x / y) < 1 := by
  have hy : 0 < y := by linarith
  have hm : x / y ∈ Set.Icc (0 : ℝ) 1 := ⟨by positivity, by rw [div_le_one hy]; linarith⟩
  constructor
  · rw [← C30_smooth5.zero]
    exact C30_smooth5.mono ⟨le_refl _, zero_le_one⟩ hm (by positivity)
  · rw [← C30_smooth5.one]
    exact C30_smooth5.mono hm ⟨zero_le_one, le_refl _⟩ (by rw [div_lt_one hy]; exact hxy)

/-- **C59, fade in.** The first `min(round(time * rate), length)` samples are multiplied with gains strictly between zero and one that increase strictly, all other samples are kept. -/
theorem C59_fade_in {w : Wave ℝ} (hw : w.Wf) (hr : 0 < w.rate) (time : ℝ) :
    ∃ (w' : Wave ℝ) (gain : Nat → ℝ), w.fadeIn time = some w' ∧ w'.Wf ∧ w'.rate = w.rate ∧ w'.channels = w.channels ∧ w'.len = w.len ∧
      (∀ k, k < min (roundNat (time * w.rate)) w.len → 0 < gain k ∧ gain k < 1) ∧
      (∀ j k, j < k → k < min (roundNat (time * w.rate)) w.len → gain j < gain k) ∧
      ∀ c k, w'.at? c k = (w.at? c k).map fun x => if k < min (roundNat (time * w.rate)) w.len then x * gain k else x := by
  obtain ⟨f, e, hat⟩ := made_tab hw
  have hc := fade_count hr time
  generalize hN : min (roundNat (time * w.rate)) w.len = N at hc ⊢
  have hNl : N ≤ w.len := by omega
  have key : w.fadeIn time = some (tab w.rate w.channels w.len fun c i => if 0 ≤ i ∧ i < 0 + N then f c i * smooth5 (((i - 0 + 1 : Nat) : ℝ) / ((N : ℝ) + 1)) else f c i) := by
    unfold Wave.fadeIn
    simp only
    rw [hc]
    refine Eq.trans ?_ (tab_scaleFrames (rate := w.rate) (n := w.channels) (f := f) (off := 0) (m := N) (len := w.len) (by omega) (fun k => smooth5 (((k + 1 : Nat) : ℝ) / ((N : ℝ) + 1))))
    simp only [Nat.zero_add]
    rw [← e]
  refine ⟨_, fun k => smooth5 (((k + 1 : Nat) : ℝ) / ((N : ℝ) + 1)), key, tab_wf hw.zero, rfl, tab_channels _ _ _ _, rfl, fun k hk => ?_, fun j k hjk hk => ?_, fun c k => ?_⟩
  · apply smooth5_gain
    · positivity
    · have : ((k + 1 : Nat) : ℝ) < ((N + 1 : Nat) : ℝ) := by exact_mod_cast (by omega : k + 1 < N + 1)
      push_cast at this ⊢; linarith
  · have hN1 : (0 : ℝ) < (N : ℝ) + 1 := by positivity
    have h1 : ((j + 1 : Nat) : ℝ) < ((k + 1 : Nat) : ℝ) := by exact_mod_cast (by omega : j + 1 < k + 1)
    have h2 : ((k + 1 : Nat) : ℝ) ≤ (N : ℝ) + 1 := by exact_mod_cast (by omega : k + 1 ≤ N + 1)
    refine C30_smooth5.mono ⟨by positivity, ?_⟩ ⟨by positivity, ?_⟩ (div_lt_div_of_pos_right h1 hN1)
    · rw [div_le_one hN1]; linarith
    · rw [div_le_one hN1]; exact h2
  · rw [tab_at, hat]
    by_cases h : c < w.channels ∧ k < w.len
    · rw [if_pos h, if_pos h]
      by_cases hk : k < N
      · rw [if_pos ⟨Nat.zero_le _, by omega⟩]; simp only [Option.map_some, if_pos hk, Nat.sub_zero]
      · rw [if_neg (by omega)]; simp only [Option.map_some, if_neg hk]
    · rw [if_neg h, if_neg h]; rfl

/-- **C59, fade out.** The last `min(round(time * rate), length)` samples are multiplied with gains strictly between zero and one that decrease strictly, all other samples are kept. -/
theorem C59_fade_out {w : Wave ℝ} (hw : w.Wf) (hr : 0 < w.rate) (time : ℝ) :
    ∃ (w' : Wave ℝ) (gain : Nat → ℝ), w.fadeOut time = some w' ∧ w'.Wf ∧ w'.rate = w.rate ∧ w'.channels = w.channels ∧ w'.len = w.len ∧
      (∀ k, w.len ≤ k + roundNat (time * w.rate) → k < w.len → 0 < gain k ∧ gain k < 1) ∧
      (∀ j k, w.len ≤ j + roundNat (time * w.rate) → j < k → k < w.len → gain k < gain j) ∧
      ∀ c k, w'.at? c k = (w.at? c k).map fun x => if w.len ≤ k + roundNat (time * w.rate) then x * gain k else x := by
  obtain ⟨f, e, hat⟩ := made_tab hw
  have hc := fade_count hr time
  generalize roundNat (time * w.rate) = M at hc ⊢
  generalize hN : min M w.len = N at hc
  have hNl : N ≤ w.len := by omega
  have key : w.fadeOut time = some (tab w.rate w.channels w.len fun c i => if w.len - N ≤ i ∧ i < w.len - N + N then f c i * smooth5 (((N : ℝ) - ((i - (w.len - N) : Nat) : ℝ)) / ((N : ℝ) + 1)) else f c i) := by
    unfold Wave.fadeOut
    simp only
    rw [hc]
    refine Eq.trans ?_ (tab_scaleFrames (rate := w.rate) (n := w.channels) (f := f) (off := w.len - N) (m := N) (len := w.len) (by omega) (fun k => smooth5 (((N : ℝ) - k) / ((N : ℝ) + 1))))
    simp only [if_pos hNl]
    rw [← e]
  have hN1 : (0 : ℝ) < (N : ℝ) + 1 := by positivity
  refine ⟨_, fun k => smooth5 (((N : ℝ) - ((k - (w.len - N) : Nat) : ℝ)) / ((N : ℝ) + 1)), key, tab_wf hw.zero, rfl, tab_channels _ _ _ _, rfl, fun k hk hkl => ?_, fun j k hj hjk hk => ?_, fun c k => ?_⟩
  · apply smooth5_gain
    · have : ((k - (w.len - N) : Nat) : ℝ) < N := by exact_mod_cast (by omega : k - (w.len - N) < N)
      linarith
    · have : (0 : ℝ) ≤ ((k - (w.len - N) : Nat) : ℝ) := Nat.cast_nonneg _
      linarith
  · have h1 : ((j - (w.len - N) : Nat) : ℝ) < ((k - (w.len - N) : Nat) : ℝ) := by exact_mod_cast (by omega : j - (w.len - N) < k - (w.len - N))
    have h2 : ((k - (w.len - N) : Nat) : ℝ) < N := by exact_mod_cast (by omega : k - (w.len - N) < N)
    have h3 : (0 : ℝ) ≤ ((j - (w.len - N) : Nat) : ℝ) := Nat.cast_nonneg _
    refine C30_smooth5.mono ⟨div_nonneg (by linarith) hN1.le, ?_⟩ ⟨div_nonneg (by linarith) hN1.le, ?_⟩ (div_lt_div_of_pos_right (by linarith) hN1)
    · rw [div_le_one hN1]; linarith
    · rw [div_le_one hN1]; linarith
  · rw [tab_at, hat]
    by_cases h : c < w.channels ∧ k < w.len
    · rw [if_pos h, if_pos h]
      by_cases hk : w.len ≤ k + M
      · rw [if_pos ⟨by omega, by omega⟩]; simp only [Option.map_some, if_pos hk]
      · rw [if_neg (by omega)]; simp only [Option.map_some, if_neg hk]
    · rw [if_neg h, if_neg h]; rfl

/-- **C59, both fades.** No magnitude increases, and samples that are further than the fade time from both ends are kept. -/
theorem C59_fade {w : Wave ℝ} (hw : w.Wf) (hr : 0 < w.rate) (time : ℝ) :
    ∃ w', w.fade time = some w' ∧ w'.channels = w.channels ∧ w'.len = w.len ∧
      (∀ c k x, w.at? c k = some x → ∃ y, w'.at? c k = some y ∧ |y| ≤ |x|) ∧
      (∀ c k, roundNat (time * w.rate) ≤ k → k + roundNat (time * w.rate) < w.len → w'.at? c k = w.at? c k) := by
  obtain ⟨w1, g1, h1, b1, br, bc, bl, bg, -, ba⟩ := C59_fade_in hw hr time
  obtain ⟨w2, g2, h2, d1, dr, dc, dl, dg, -, da⟩ := C59_fade_out b1 (by rw [br]; exact hr) time
  rw [br, bl] at dg da
  have hmul : ∀ x g : ℝ, 0 < g ∧ g < 1 → |x * g| ≤ |x| := by
    intro x g hg
    rw [abs_mul, abs_of_pos hg.1]
    exact mul_le_of_le_one_right (abs_nonneg _) hg.2.le
  refine ⟨w2, ?_, dc.trans bc, dl.trans bl, fun c k x hx => ?_, fun c k hk1 hk2 => ?_⟩
  · unfold Wave.fade; rw [h1]; exact h2
  · have hkl : k < w.len := by
      obtain ⟨f, e, hat⟩ := made_tab hw
      rw [hat] at hx
      split at hx
      · rename_i h; exact h.2
      · cases hx
    have hx1 := ba c k
    rw [hx] at hx1
    have hx2 := da c k
    rw [hx1] at hx2
    refine ⟨_, hx2, ?_⟩
    refine le_trans (b := |if k < min (roundNat (time * w.rate)) w.len then x * g1 k else x|) ?_ ?_
    · beta_reduce
      by_cases h : w.len ≤ k + roundNat (time * w.rate)
      · rw [if_pos h]; exact hmul _ _ (dg k h hkl)
      · rw [if_neg h]
    · by_cases h : k < min (roundNat (time * w.rate)) w.len
      · rw [if_pos h]; exact hmul _ _ (bg k h)
      · rw [if_neg h]
  · rw [da, ba]
    cases w.at? c k with
    | none => rfl
    | some x =>
      simp only [Option.map_some]
      rw [if_neg (by omega), if_neg (by omega)]

/-- A wave of four samples. -/
example : (Wave.fromSamples 4 [1, -2, 3, 1 / 2] : Wave ℝ).Wf ∧ ¬ IsPeak (Wave.fromSamples 4 [1, -2, 3, 1 / 2] : Wave ℝ) 0 := by
  refine ⟨C57_consistent (.fromSamples _ _), fun h => ?_⟩
  have := h.bound 0 0 1 rfl
  norm_num at this

end Fundsp.Wv
