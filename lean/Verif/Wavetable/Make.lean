import Verif.Wavetable.Props
import Mathlib.Analysis.SpecialFunctions.Trigonometric.Basic

/-!
# Making wavetables: property C62, contents
-/

noncomputable section
namespace Fundsp.Wt

theorem fill_some (pitch : ℝ) (phase : Nat → ℝ) (amplitude : ℝ → Nat → ℝ) : ∀ (m i : Nat) (a : List ℂ),
    (∀ k, i ≤ k → k < i + m → 0 < faded pitch amplitude k → k < a.length) →
    ∃ b, fill pitch phase amplitude m i a = some b ∧ b.length = a.length ∧
      ∀ k, b.getD k 0 = if i ≤ k ∧ k < i + m ∧ 0 < faded pitch amplitude k then faded pitch amplitude k * Complex.exp (2 * Real.pi * phase k * Complex.I) else a.getD k 0 := by
  intro m
  induction m with
  | zero => intro i a _; exact ⟨a, rfl, rfl, fun k => by rw [if_neg (by omega)]⟩
  | succ m ih =>
    intro i a h
    unfold fill
    by_cases hw : 0 < faded pitch amplitude i
    · have hi := h i (le_refl _) (by omega) hw
      simp only [hw, hi, if_true]
      obtain ⟨b, h1, h2, h3⟩ := ih (i + 1) (a.set i (faded pitch amplitude i * Complex.exp (2 * Real.pi * phase i * Complex.I)))
        (fun k hk hk' hf => by rw [List.length_set]; exact h k (by omega) (by omega) hf)
      refine ⟨b, h1, by rw [h2, List.length_set], fun k => ?_⟩
      rw [h3]
      by_cases hk : k = i
      · subst hk
        rw [if_neg (by omega), if_pos ⟨le_refl _, by omega, hw⟩, List.getD_eq_getElem?_getD, List.getElem?_set_self hi]
        rfl
      · have e : (i + 1 ≤ k ∧ k < i + 1 + m ∧ 0 < faded pitch amplitude k) ↔ (i ≤ k ∧ k < i + (m + 1) ∧ 0 < faded pitch amplitude k) := by
          constructor <;> rintro ⟨x, y, z⟩ <;> exact ⟨by omega, by omega, z⟩
        simp only [e]
        split
        · rfl
        · rw [List.getD_eq_getElem?_getD, List.getElem?_set_ne (fun c => hk c.symm), ← List.getD_eq_getElem?_getD]
    · simp only [hw, if_false]
      obtain ⟨b, h1, h2, h3⟩ := ih (i + 1) a (fun k hk hk' hf => h k (by omega) (by omega) hf)
      refine ⟨b, h1, h2, fun k => ?_⟩
      rw [h3]
      have e : (i + 1 ≤ k ∧ k < i + 1 + m ∧ 0 < faded pitch amplitude k) ↔ (i ≤ k ∧ k < i + (m + 1) ∧ 0 < faded pitch amplitude k) := by
        constructor
        · rintro ⟨x, y, z⟩; exact ⟨by omega, by omega, z⟩
        · rintro ⟨x, y, z⟩
          have : k ≠ i := fun c => hw (c ▸ z)
          exact ⟨by omega, by omega, z⟩
      simp only [e]

theorem waveLength_pow2 (pitch : ℝ) : ∃ k, k ≤ 32 ∧ waveLength pitch = 2 ^ k := by
  obtain ⟨k, hk⟩ := Chan.isPow2 (4 * harmonics pitch)
  unfold waveLength
  rw [hk]
  rcases Nat.lt_or_ge k 5 with h | h
  · refine ⟨5, by omega, ?_⟩
    have : 2 ^ k ≤ 2 ^ 5 := Nat.pow_le_pow_right (by decide) (by omega)
    rw [show (32 : Nat) = 2 ^ 5 from rfl, Nat.max_eq_right this]; decide
  · have h5 : 2 ^ 5 ≤ 2 ^ k := Nat.pow_le_pow_right (by decide) h
    rw [show (32 : Nat) = 2 ^ 5 from rfl, Nat.max_eq_left h5]
    rcases Nat.lt_or_ge k 13 with h' | h'
    · exact ⟨k, by omega, show min (2 ^ k) (2 ^ 13) = 2 ^ k from Nat.min_eq_left (Nat.pow_le_pow_right (n := 2) (by decide) (show k ≤ 13 by omega))⟩
    · exact ⟨13, by omega, show min (2 ^ k) (2 ^ 13) = 2 ^ 13 from Nat.min_eq_right (Nat.pow_le_pow_right (n := 2) (by decide) (show 13 ≤ k by omega))⟩

/-- C62. The wave length is a power of two between 32 and 8192, and at least four times the number of partials unless that would exceed 8192. -/
theorem C62_length (pitch : ℝ) : (∃ k, waveLength pitch = 2 ^ k) ∧ 32 ≤ waveLength pitch ∧ waveLength pitch ≤ 8192 ∧
    (4 * harmonics pitch ≤ waveLength pitch ∨ waveLength pitch = 8192) := by
  obtain ⟨k, _, h⟩ := waveLength_pow2 pitch
  have := Chan.le_nextPowerOfTwo (4 * harmonics pitch)
  refine ⟨⟨k, h⟩, ?_⟩
  clear h
  unfold waveLength
  omega

theorem im_partial (w p : ℝ) (k n L : Nat) : (((w : ℂ) * Complex.exp (2 * Real.pi * p * Complex.I)) * Complex.exp (2 * Real.pi * Complex.I * (k * n / L))).im
    = w * Real.sin (2 * Real.pi * ((k : ℝ) * n / L + p)) := by
  rw [mul_assoc, ← Complex.exp_add, show (2 * Real.pi * p * Complex.I + 2 * Real.pi * Complex.I * (k * n / L) : ℂ) = ((2 * Real.pi * ((k : ℝ) * n / L + p) : ℝ) : ℂ) * Complex.I by
    push_cast; ring]
  rw [Complex.im_ofReal_mul, Complex.exp_ofReal_mul_I_im]

/-- C62. A wave is the sum of its partials up to 22 kHz: sample `n` of a wave of length `L` sums, over partials `i` with `i * pitch ≤ 22000`, sines of frequency `i` cycles per wave with the given
phase and the faded amplitude; negative amplitudes are left out. This needs fewer than 8192 partials. -/
theorem C62_wave_partial (pitch : ℝ) (phase : Nat → ℝ) (amplitude : ℝ → Nat → ℝ) (hh : harmonics pitch < 8192) :
    ∃ wave, makeWave pitch phase amplitude = some wave ∧ wave.length = waveLength pitch ∧
      ∀ n, n < wave.length → wave.getD n 0 = ∑ i ∈ Finset.Icc 1 (harmonics pitch),
        max 0 (faded pitch amplitude i) * Real.sin (2 * Real.pi * ((i : ℝ) * n / wave.length + phase i)) := by
  obtain ⟨_, h32, _, h4⟩ := C62_length pitch
  have hL : harmonics pitch < waveLength pitch := by omega
  obtain ⟨b, h1, h2, h3⟩ := fill_some pitch phase amplitude (harmonics pitch) 1 (List.replicate (waveLength pitch) 0)
    (fun k _ hk _ => by rw [List.length_replicate]; omega)
  rw [List.length_replicate] at h2
  refine ⟨(List.range b.length).map fun n => (idft b n).im * b.length, ?_, by simp [h2], fun n hn => ?_⟩
  · unfold makeWave; rw [h1]; rfl
  · simp only [List.length_map, List.length_range] at hn ⊢
    rw [List.getD_eq_getElem?_getD, List.getElem?_map, List.getElem?_range hn]
    simp only [Option.map_some, Option.getD_some]
    have hpos : (b.length : ℝ) ≠ 0 := by rw [h2]; positivity
    unfold idft
    rw [show ∀ z : ℂ, (z / (b.length : ℂ)).im = z.im / b.length from fun z => by rw [← Complex.ofReal_natCast]; exact Complex.div_ofReal_im z _, div_mul_cancel₀ _ hpos, Complex.im_sum]
    have hz : ∀ k, (List.replicate (waveLength pitch) (0 : ℂ)).getD k 0 = 0 := by
      intro k
      rw [List.getD_eq_getElem?_getD, List.getElem?_replicate]
      split <;> rfl
    have hsub : Finset.Icc 1 (harmonics pitch) ⊆ Finset.range b.length := by
      intro i hi; rw [Finset.mem_Icc] at hi; rw [Finset.mem_range]; omega
    symm
    rw [Finset.sum_subset_zero_on_sdiff hsub]
    · intro i hi
      rw [Finset.mem_sdiff, Finset.mem_range, Finset.mem_Icc] at hi
      rw [h3, if_neg (by omega), hz, zero_mul, Complex.zero_im]
    · intro i hi
      rw [Finset.mem_Icc] at hi
      rw [h3]
      by_cases hf : 0 < faded pitch amplitude i
      · rw [if_pos ⟨hi.1, by omega, hf⟩, im_partial, max_eq_right hf.le]
      · rw [if_neg (fun c => hf c.2.2), max_eq_left (not_lt.1 hf), hz, zero_mul, zero_mul, Complex.zero_im]

/-- C62. At their designed pitch all partials of a wave are at or below 22 kHz; those at or below 20 kHz have their full amplitude and the next partial would exceed 22 kHz. -/
theorem C62_partials (pitch : ℝ) (hp : 0 < pitch) (amplitude : ℝ → Nat → ℝ) (i : Nat) :
    (i ≤ harmonics pitch ↔ i * pitch ≤ 22000) ∧ (i * pitch ≤ 20000 → faded pitch amplitude i = amplitude pitch i) := by
  constructor
  · unfold harmonics
    rw [Nat.le_floor_iff (by positivity), le_div_iff₀ hp]
  · intro h
    unfold faded
    rw [show Math.clamp01 (Math.delerp 22000 20000 (pitch * i)) = 1 by
      unfold Math.clamp01 Math.delerp
      refine min_eq_right (le_trans ?_ (le_max_left _ _))
      rw [le_div_iff_of_neg (by norm_num)]
      nlinarith]
    norm_num [Math.smooth5]

theorem fill_none (pitch : ℝ) (phase : Nat → ℝ) (amplitude : ℝ → Nat → ℝ) (k : Nat) (hk : 0 < faded pitch amplitude k) : ∀ (m i : Nat) (a : List ℂ),
    i ≤ k → k < i + m → a.length ≤ k → fill pitch phase amplitude m i a = none := by
  intro m
  induction m with
  | zero => intro i a h1 h2; omega
  | succ m ih =>
    intro i a h1 h2 h3
    unfold fill
    simp only
    by_cases hi : i = k
    · subst hi
      rw [if_pos hk, if_neg (by omega)]
    · split
      · split
        · exact ih _ _ (by omega) (by omega) (by rw [List.length_set]; exact h3)
        · rfl
      · exact ih _ _ (by omega) (by omega) h3

/-- C62, the negation of totality: with a pitch of 2 Hz a saw wave cannot be made; the code indexes out of bounds. -/
theorem C62_violation_low : makeWave 2 (fun _ => 0) (fun _ i => 1 / i) = none := by
  have hh : harmonics 2 = 11000 := by
    unfold harmonics
    rw [show (22000 : ℝ) / 2 = ((11000 : Nat) : ℝ) by norm_num, Nat.floor_natCast]
  unfold makeWave
  rw [hh, fill_none 2 _ _ 8192 ?_ 11000 1 _ (by omega) (by omega) (by rw [List.length_replicate]; exact (C62_length 2).2.2.1)]
  · rfl
  · rw [(C62_partials 2 (by norm_num) _ 8192).2 (by norm_num)]
    norm_num

/-! ## The whole table set -/

theorem harmonics_anti {p q : ℝ} (hp : 0 < p) (h : p ≤ q) : harmonics q ≤ harmonics p :=
  Nat.floor_le_floor (div_le_div_of_nonneg_left (by norm_num) hp h)

theorem newLoop_eq (maxPitch factor : ℝ) (phase : Nat → ℝ) (amplitude : ℝ → Nat → ℝ) (wave : ℝ → List ℝ) : ∀ (n m : Nat) (p : ℝ) (t : Table),
    n < m → (∀ j, j < n → p * factor ^ j ≤ maxPitch) → maxPitch < p * factor ^ n →
    (∀ j, j < n → makeWave (p * factor ^ j) phase amplitude = some (wave (p * factor ^ j))) →
    newLoop maxPitch factor phase amplitude m p t = some (t ++ (List.range n).map fun j => (p * factor ^ j, wave (p * factor ^ j))) := by
  intro n
  induction n with
  | zero =>
    intro m p t hm _ h2 _
    obtain ⟨m, rfl⟩ : ∃ k, m = k + 1 := ⟨m - 1, by omega⟩
    unfold newLoop
    rw [pow_zero, mul_one] at h2
    rw [if_neg (not_le.2 h2)]
    simp
  | succ n ih =>
    intro m p t hm h1 h2 h3
    obtain ⟨m, rfl⟩ : ∃ k, m = k + 1 := ⟨m - 1, by omega⟩
    unfold newLoop
    have a := h1 0 (by omega)
    have b := h3 0 (by omega)
    rw [pow_zero, mul_one] at a b
    rw [if_pos a, b]
    simp only
    have e : ∀ j, p * factor * factor ^ j = p * factor ^ (j + 1) := fun j => by rw [pow_succ]; ring
    rw [ih m (p * factor) _ (by omega) (fun j hj => by rw [e]; exact h1 _ (by omega)) (by rw [e]; exact h2) (fun j hj => by rw [e]; exact h3 _ (by omega))]
    rw [List.append_assoc, List.range_succ_eq_map, List.map_cons, List.map_map]
    simp only [e, pow_zero, mul_one, List.singleton_append, Function.comp_def, Nat.succ_eq_add_one]

theorem inner_max (l : List ℝ) : ∀ acc : ℝ, acc ≤ l.foldl (fun acc x => max acc |x|) acc ∧ (∀ x ∈ l, |x| ≤ l.foldl (fun acc x => max acc |x|) acc) ∧
    (l.foldl (fun acc x => max acc |x|) acc = acc ∨ ∃ x ∈ l, |x| = l.foldl (fun acc x => max acc |x|) acc) := by
  induction l with
  | nil => intro acc; exact ⟨le_refl _, by simp, Or.inl rfl⟩
  | cons y l ih =>
    intro acc
    obtain ⟨h1, h2, h3⟩ := ih (max acc |y|)
    simp only [List.foldl_cons]
    refine ⟨(le_max_left _ _).trans h1, ?_, ?_⟩
    · intro x hx
      rcases List.mem_cons.1 hx with rfl | hx
      · exact (le_max_right _ _).trans h1
      · exact h2 x hx
    · rcases h3 with h3 | ⟨x, hx, h3⟩
      · rw [h3]
        rcases le_total acc |y| with c | c
        · rw [max_eq_right c]; exact Or.inr ⟨y, List.mem_cons_self .., rfl⟩
        · rw [max_eq_left c]; exact Or.inl rfl
      · exact Or.inr ⟨x, List.mem_cons_of_mem _ hx, h3⟩

theorem maxAmplitude_spec (t : Table) : 0 ≤ maxAmplitude t ∧ (∀ e ∈ t, ∀ x ∈ e.2, |x| ≤ maxAmplitude t) ∧
    (maxAmplitude t = 0 ∨ ∃ e ∈ t, ∃ x ∈ e.2, |x| = maxAmplitude t) := by
  have : ∀ (t : Table) (acc : ℝ), acc ≤ t.foldl (fun acc e => e.2.foldl (fun acc x => max acc |x|) acc) acc ∧
      (∀ e ∈ t, ∀ x ∈ e.2, |x| ≤ t.foldl (fun acc e => e.2.foldl (fun acc x => max acc |x|) acc) acc) ∧
      (t.foldl (fun acc e => e.2.foldl (fun acc x => max acc |x|) acc) acc = acc ∨
        ∃ e ∈ t, ∃ x ∈ e.2, |x| = t.foldl (fun acc e => e.2.foldl (fun acc x => max acc |x|) acc) acc) := by
    intro t
    induction t with
    | nil => intro acc; exact ⟨le_refl _, by simp, Or.inl rfl⟩
    | cons e t ih =>
      intro acc
      obtain ⟨a1, a2, a3⟩ := inner_max e.2 acc
      obtain ⟨h1, h2, h3⟩ := ih (e.2.foldl (fun acc x => max acc |x|) acc)
      simp only [List.foldl_cons]
      refine ⟨a1.trans h1, ?_, ?_⟩
      · intro e' he x hx
        rcases List.mem_cons.1 he with rfl | he
        · exact (a2 x hx).trans h1
        · exact h2 e' he x hx
      · rcases h3 with h3 | ⟨e', he, x, hx, h3⟩
        · rw [h3]
          rcases a3 with a3 | ⟨x, hx, a3⟩
          · exact Or.inl a3
          · exact Or.inr ⟨e, List.mem_cons_self .., x, hx, a3⟩
        · exact Or.inr ⟨e', List.mem_cons_of_mem _ he, x, hx, h3⟩
  exact this t 0

theorem normalize_scale (t : Table) : ∃ z : ℝ, 0 < z ∧ normalize t = t.map fun e => (e.1, e.2.map (· * z)) := by
  unfold normalize
  split
  · rename_i h; exact ⟨1 / maxAmplitude t, by positivity, rfl⟩
  · exact ⟨1, one_pos, by simp⟩

/-- C62. Table sets are normalized: no sample exceeds one in size, and unless all are zero some sample has size one. -/
theorem C62_normalized (m : Nat) (minPitch maxPitch tablesPerOctave : ℝ) (phase : Nat → ℝ) (amplitude : ℝ → Nat → ℝ) (t : Table)
    (h : new m minPitch maxPitch tablesPerOctave phase amplitude = some t) :
    (∀ e ∈ t, ∀ x ∈ e.2, |x| ≤ 1) ∧ ((∀ e ∈ t, ∀ x ∈ e.2, x = 0) ∨ ∃ e ∈ t, ∃ x ∈ e.2, |x| = 1) := by
  unfold new at h
  obtain ⟨u, _, rfl⟩ := Option.map_eq_some_iff.1 h
  obtain ⟨h1, h2, h3⟩ := maxAmplitude_spec u
  unfold normalize
  by_cases hp : 0 < maxAmplitude u
  · rw [if_pos hp]
    have hs : ∀ x : ℝ, |x * (1 / maxAmplitude u)| = |x| / maxAmplitude u := fun x => by
      rw [abs_mul, abs_of_pos (show 0 < 1 / maxAmplitude u by positivity)]; ring
    constructor
    · intro e he x hx
      obtain ⟨e', he', rfl⟩ := List.mem_map.1 he
      obtain ⟨x', hx', rfl⟩ := List.mem_map.1 hx
      rw [hs, div_le_one hp]
      exact h2 e' he' x' hx'
    · right
      rcases h3 with h3 | ⟨e, he, x, hx, h3⟩
      · linarith
      · exact ⟨_, List.mem_map_of_mem he, _, List.mem_map_of_mem hx, by rw [hs, h3, div_self hp.ne']⟩
  · rw [if_neg hp]
    have hz : ∀ e ∈ u, ∀ x ∈ e.2, x = 0 := fun e he x hx => abs_nonpos_iff.1 ((h2 e he x hx).trans (not_lt.1 hp))
    exact ⟨fun e he x hx => by rw [hz e he x hx]; norm_num, Or.inl hz⟩

/-- C62. Making a table set finishes. Its tables have the pitches `minPitch * 2 ^ (k / tablesPerOctave)` up to `maxPitch`, and each holds the wave of its pitch, all scaled alike. -/
theorem C62_new (minPitch maxPitch tablesPerOctave : ℝ) (phase : Nat → ℝ) (amplitude : ℝ → Nat → ℝ) (hmin : 0 < minPitch) (hh : harmonics minPitch < 8192)
    (ht : 0 < tablesPerOctave) :
    ∃ (t : Table) (M : Nat) (z : ℝ), (∀ m, M ≤ m → new m minPitch maxPitch tablesPerOctave phase amplitude = some t) ∧ 0 < z ∧
      (∀ k : Nat, k < t.length ↔ minPitch * (2 : ℝ) ^ ((k : ℝ) / tablesPerOctave) ≤ maxPitch) ∧
      ∀ k, k < t.length → ∃ wave, makeWave (minPitch * (2 : ℝ) ^ ((k : ℝ) / tablesPerOctave)) phase amplitude = some wave ∧
        t[k]? = some (minPitch * (2 : ℝ) ^ ((k : ℝ) / tablesPerOctave), wave.map (· * z)) := by
  have hF : 1 < (2 : ℝ) ^ (1 / tablesPerOctave) := Real.one_lt_rpow (by norm_num) (by positivity)
  have hpow : ∀ k : Nat, ((2 : ℝ) ^ (1 / tablesPerOctave)) ^ k = (2 : ℝ) ^ ((k : ℝ) / tablesPerOctave) := fun k => by
    rw [← Real.rpow_natCast, ← Real.rpow_mul (by norm_num)]; congr 1; ring
  generalize hFe : (2 : ℝ) ^ (1 / tablesPerOctave) = F at hF hpow
  have hex : ∃ n : Nat, maxPitch < minPitch * F ^ n := by
    obtain ⟨n, hn⟩ := pow_unbounded_of_one_lt (maxPitch / minPitch) hF
    exact ⟨n, by rw [div_lt_iff₀ hmin] at hn; linarith⟩
  classical
  have hn := Nat.find_spec hex
  have hlt : ∀ j, j < Nat.find hex → minPitch * F ^ j ≤ maxPitch := fun j hj => not_lt.1 (Nat.find_min hex hj)
  generalize Nat.find hex = n at hn hlt
  have hmono : ∀ j k : Nat, j ≤ k → minPitch * F ^ j ≤ minPitch * F ^ k := fun j k hjk => mul_le_mul_of_nonneg_left (pow_le_pow_right₀ hF.le hjk) hmin.le
  have hw : ∀ j : Nat, ∃ wave, makeWave (minPitch * F ^ j) phase amplitude = some wave := fun j => by
    obtain ⟨w, h, _⟩ := C62_wave_partial (minPitch * F ^ j) phase amplitude
      (lt_of_le_of_lt (harmonics_anti hmin (by have := hmono 0 j (by omega); rwa [pow_zero, mul_one] at this)) hh)
    exact ⟨w, h⟩
  have hw' : ∀ j : Nat, makeWave (minPitch * F ^ j) phase amplitude = some ((makeWave (minPitch * F ^ j) phase amplitude).getD []) := fun j => by
    obtain ⟨w, h⟩ := hw j; rw [h]; rfl
  obtain ⟨z, hz, hnz⟩ := normalize_scale ((List.range n).map fun j => (minPitch * F ^ j, (makeWave (minPitch * F ^ j) phase amplitude).getD []))
  refine ⟨normalize ((List.range n).map fun j => (minPitch * F ^ j, (makeWave (minPitch * F ^ j) phase amplitude).getD [])), n + 1, z, ?_, hz, ?_, ?_⟩
  · intro m hm
    unfold new
    rw [hFe, newLoop_eq maxPitch F phase amplitude (fun p => (makeWave p phase amplitude).getD []) n m minPitch [] (by omega) hlt hn (fun j _ => hw' j)]
    rfl
  · intro k
    rw [hnz, List.length_map, List.length_map, List.length_range, ← hpow]
    refine ⟨hlt k, fun h => ?_⟩
    by_contra c
    have := hmono n k (by omega)
    linarith
  · intro k hk
    rw [hnz, List.length_map, List.length_map, List.length_range] at hk
    refine ⟨_, by rw [← hpow]; exact hw' k, ?_⟩
    rw [hnz, List.getElem?_map, List.getElem?_map, List.getElem?_range hk, ← hpow]
    rfl

theorem newLoop_mono (maxPitch factor : ℝ) (phase : Nat → ℝ) (amplitude : ℝ → Nat → ℝ) : ∀ (m k : Nat) (p : ℝ) (t u : Table),
    newLoop maxPitch factor phase amplitude m p t = some u → newLoop maxPitch factor phase amplitude (m + k) p t = some u := by
  intro m
  induction m with
  | zero => intro k p t u h; cases h
  | succ m ih =>
    intro k p t u h
    rw [show m + 1 + k = m + k + 1 by omega]
    unfold newLoop at h ⊢
    split
    · rename_i hp
      rw [if_pos hp] at h
      cases hw : makeWave p phase amplitude with
      | none => rw [hw] at h; cases h
      | some w =>
        rw [hw] at h
        exact ih k _ _ _ h
    · rename_i hp
      rw [if_neg hp] at h
      exact h

/-- C62. A table set of at least three tables made by the library is fit for reading. -/
theorem C62_valid (minPitch maxPitch tablesPerOctave : ℝ) (phase : Nat → ℝ) (amplitude : ℝ → Nat → ℝ) (hmin : 0 < minPitch) (hh : harmonics minPitch < 8192)
    (ht : 0 < tablesPerOctave) (h3 : minPitch * (2 : ℝ) ^ (2 / tablesPerOctave) ≤ maxPitch) (m : Nat) (t : Table)
    (h : new m minPitch maxPitch tablesPerOctave phase amplitude = some t) : Valid t := by
  obtain ⟨u, M, z, hu, hz, hlen, hget⟩ := C62_new minPitch maxPitch tablesPerOctave phase amplitude hmin hh ht
  have htu : t = u := by
    have h1 := hu (m + M) (by omega)
    unfold new at h h1
    obtain ⟨a, ha, rfl⟩ := Option.map_eq_some_iff.1 h
    rw [newLoop_mono _ _ _ _ m M _ _ _ ha] at h1
    exact Option.some.inj h1
  subst htu
  have hlt : ∀ (i : Nat) (a : ℝ × List ℝ), t[i]? = some a → i < t.length := fun i a hi => (List.getElem?_eq_some_iff.1 hi).1
  refine ⟨(hlen 2).2 (by exact_mod_cast h3), ?_, ?_⟩
  · intro i j a b hi hj hij
    obtain ⟨_, _, ha⟩ := hget i (hlt i a hi)
    obtain ⟨_, _, hb⟩ := hget j (hlt j b hj)
    rw [hi] at ha; rw [hj] at hb
    cases ha; cases hb
    refine mul_lt_mul_of_pos_left (Real.rpow_lt_rpow_of_exponent_lt (by norm_num) ?_) hmin
    rw [div_lt_div_iff_of_pos_right ht]
    exact_mod_cast hij
  · intro i a hi
    obtain ⟨w, hw, ha⟩ := hget i (hlt i a hi)
    rw [hi] at ha
    cases ha
    have hle : minPitch ≤ minPitch * (2 : ℝ) ^ ((i : ℝ) / tablesPerOctave) :=
      le_mul_of_one_le_right hmin.le (Real.one_le_rpow (by norm_num) (by positivity))
    obtain ⟨w', hw', hl, _⟩ := C62_wave_partial (minPitch * (2 : ℝ) ^ ((i : ℝ) / tablesPerOctave)) phase amplitude (lt_of_le_of_lt (harmonics_anti hmin hle) hh)
    rw [hw] at hw'
    cases hw'
    simp only [List.length_map]
    rw [hl]
    exact waveLength_pow2 _

theorem harmonics_20 : harmonics 20 = 1100 := by
  unfold harmonics
  rw [show (22000 : ℝ) / 20 = ((1100 : Nat) : ℝ) by norm_num, Nat.floor_natCast]

/-- The built-in saw table set meets the hypotheses: it can be made, and reading it with hint zero never fails. -/
example : ∃ t m, new m 20 20000 4 (fun i => if i % 2 = 1 then 0 else 0.5) (fun _ i => 1 / i) = some t ∧ Valid t := by
  have h20 : harmonics 20 < 8192 := by rw [harmonics_20]; omega
  obtain ⟨t, M, _, h, _⟩ := C62_new 20 20000 4 (fun i => if i % 2 = 1 then 0 else 0.5) (fun _ i => 1 / i) (by norm_num) h20 (by norm_num)
  refine ⟨t, M, h M (le_refl _), C62_valid 20 20000 4 _ _ (by norm_num) h20 (by norm_num) ?_ M t (h M (le_refl _))⟩
  have : (2 : ℝ) ^ ((2 : ℝ) / 4) ≤ 2 ^ (1 : ℝ) := Real.rpow_le_rpow_of_exponent_le (by norm_num) (by norm_num)
  rw [Real.rpow_one] at this
  linarith

/-! ## No partial above Nyquist -/

theorem selected_partials (t : Table) (ht : Valid t) (f : ℝ) (hf : 0 < f) (hmax : f ≤ pitch t (t.length - 2)) (j : Nat) (hj : j < t.length) (hfj : f ≤ pitch t j) (k : Nat)
    (hk : k ≤ harmonics (pitch t j)) : k * f ≤ 22000 := by
  have hpj : 0 < pitch t j := lt_of_lt_of_le hf hfj
  have := ((C62_partials (pitch t j) hpj (fun _ _ => 0) k).1).1 hk
  exact le_trans (mul_le_mul_of_nonneg_left hfj (Nat.cast_nonneg _)) this

/-- C62. Up to the last pitch but one, the value read is a mix of one or two tables that have no partial above 22 kHz at the given frequency:
every partial number of these tables, times the frequency, is at most 22000. -/
theorem C62_bandlimited (t : Table) (ht : Valid t) (hint : Nat) (hh : hint ≤ t.length - 3) (f : ℝ) (hf : 0 < f) (hmax : f ≤ pitch t (t.length - 2))
    (phase v : ℝ) (hint' : Nat) (h0 : 0 ≤ phase) (h1 : phase ≤ 1) (hr : read t hint f phase = some (v, hint')) :
    ∃ j₁ j₂ a b μ, at' t j₁ phase = some a ∧ at' t j₂ phase = some b ∧ v = a + μ * (b - a) ∧ 0 ≤ μ ∧ μ ≤ 1 ∧
      ∀ k : Nat, k ≤ harmonics (pitch t j₁) ∨ k ≤ harmonics (pitch t j₂) → k * f ≤ 22000 := by
  have h3 := ht.three
  have hs := C62_select t ht hint hh f phase v hint' hr h0 h1
  cases hs with
  | below v a b =>
    have : f ≤ pitch t 1 := a.trans (ht.pitch_le (by omega) (by omega))
    refine ⟨1, 1, v, v, 0, b, b, by ring, le_refl _, by norm_num, fun k hk => ?_⟩
    rw [or_self] at hk
    exact selected_partials t ht f hf hmax 1 (by omega) this k hk
  | between i x y a b c d e =>
    have hlt := ht.pitch_lt (show i < i + 1 by omega) (by omega)
    refine ⟨i + 1, i + 2, x, y, _, d, e, rfl, div_nonneg (by linarith) (by linarith), by rw [div_le_one (by linarith)]; linarith, fun k hk => ?_⟩
    rcases hk with hk | hk
    · exact selected_partials t ht f hf hmax (i + 1) (by omega) c k hk
    · exact selected_partials t ht f hf hmax (i + 2) (by omega) (c.trans (ht.pitch_le (by omega) (by omega))) k hk
  | above v a b =>
    refine ⟨t.length - 1, t.length - 1, v, v, 0, b, b, by ring, le_refl _, by norm_num, fun k hk => ?_⟩
    rw [or_self] at hk
    exact selected_partials t ht f hf hmax (t.length - 1) (by omega) (hmax.trans (ht.pitch_le (by omega) (by omega))) k hk

/-! ## A small table set by hand -/

/-- Three tables of two samples. -/
def small : Table := [(100, [0, 1]), (200, [0, 2]), (400, [0, 3])]

theorem small_valid : Valid small := by
  have e : ∀ (i : Nat) (a : ℝ × List ℝ), small[i]? = some a → (i = 0 ∧ a = (100, [0, 1])) ∨ (i = 1 ∧ a = (200, [0, 2])) ∨ (i = 2 ∧ a = (400, [0, 3])) := by
    intro i a h
    match i with
    | 0 => exact Or.inl ⟨rfl, (Option.some.inj h).symm⟩
    | 1 => exact Or.inr (Or.inl ⟨rfl, (Option.some.inj h).symm⟩)
    | 2 => exact Or.inr (Or.inr ⟨rfl, (Option.some.inj h).symm⟩)
    | i + 3 => cases h
  refine ⟨le_refl _, fun i j a b hi hj hij => ?_, fun i a hi => ⟨1, by omega, ?_⟩⟩
  · rcases e i a hi with ⟨rfl, rfl⟩ | ⟨rfl, rfl⟩ | ⟨rfl, rfl⟩ <;> rcases e j b hj with ⟨rfl, rfl⟩ | ⟨rfl, rfl⟩ | ⟨rfl, rfl⟩ <;>
      first | omega | norm_num
  · rcases e i a hi with ⟨rfl, rfl⟩ | ⟨rfl, rfl⟩ | ⟨rfl, rfl⟩ <;> rfl

/-- Hypotheses of the reading theorems are met by the small table set; at 150 Hz the second and third table are mixed half and half. -/
example : tableIndex small 0 150 = some 0 := by norm_num [tableIndex, small]

example : ∃ v h', read small 0 150 (1 / 4) = some (v, h') ∧ Heard small 150 (1 / 4) v := by
  obtain ⟨v, h', e, _⟩ := C62_in_bounds small small_valid 0 (by omega) 150 (1 / 4) (by norm_num) (by norm_num)
  exact ⟨v, h', e, C62_select small small_valid 0 (by omega) 150 (1 / 4) v h' e (by norm_num) (by norm_num)⟩

/-- C62. The selected table does depend on the hint at the pitch of a table, although the value read does not: four tables, frequency 200. -/
theorem C62_violation_hint : tableIndex (small ++ [(800, [0, 4])]) 0 200 = some 0 ∧ searchAll (small ++ [(800, [0, 4])]) 200 = some 1 := by
  constructor
  · norm_num [tableIndex, small]
  · norm_num [searchAll, search, small, show (1 : Nat) >>> 1 = 0 from rfl]

end Fundsp.Wt
