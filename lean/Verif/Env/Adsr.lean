import Verif.Env.Props
import Mathlib.Tactic.IntervalCases

/-!
# `adsr_live`: property C55
-/

noncomputable section
namespace Fundsp.Env

open Fundsp.Math (lerp delerp clamp01)

/-! ## Shape -/

/-- The attack, decay and sustain curve: a straight rise to one during `a`, a straight fall to `s` during the next `d`, then `s`. -/
def curve (a d s t : ℝ) : ℝ := if t < a then t / a else if t < a + d then 1 - (1 - s) * ((t - a) / d) else s

/-- The release: a straight fall from one to zero during `r`. -/
def fall (r t : ℝ) : ℝ := max 0 (min 1 (1 - t / r))

theorem ads_curve (a d s t : ℝ) : ads a d s t = curve a d s t := by
  unfold ads curve
  by_cases h1 : t < a
  · rw [if_pos h1, if_pos h1]; unfold lerp; ring
  · rw [if_neg h1, if_neg h1]
    by_cases h2 : t - a < d
    · rw [if_pos h2, if_pos (by linarith)]; unfold lerp; ring
    · rw [if_neg h2, if_neg (by linarith)]

theorem clamp_fall {r : ℝ} (hr : 0 < r) (rs t : ℝ) : clamp01 (delerp (rs + r) rs t) = fall r (t - rs) := by
  have e : delerp (rs + r) rs t = 1 - (t - rs) / r := by
    unfold delerp
    rw [show rs - (rs + r) = -r by ring]
    field_simp
    ring
  unfold clamp01 fall
  rw [e]
  rcases le_total (1 - (t - rs) / r) 0 with h | h
  · simp [h, le_trans h (by norm_num : (0 : ℝ) ≤ 1)]
  · rcases le_total (1 - (t - rs) / r) 1 with h' | h' <;> simp [h, h']

theorem ads_range {a d s t : ℝ} (ha : 0 ≤ a) (hd : 0 ≤ d) (hs0 : 0 ≤ s) (hs1 : s ≤ 1) (ht : 0 ≤ t) : 0 ≤ ads a d s t ∧ ads a d s t ≤ 1 := by
  unfold ads
  split
  · rename_i h
    have hap : 0 < a := by linarith
    have h0 : 0 ≤ t / a := by positivity
    have h1 : t / a ≤ 1 := by rw [div_le_one hap]; linarith
    unfold lerp; constructor <;> nlinarith
  · split
    · rename_i h1 h2
      have hdp : 0 < d := by linarith
      have h0 : 0 ≤ (t - a) / d := div_nonneg (by linarith) hd
      have h1 : (t - a) / d ≤ 1 := by rw [div_le_one hdp]; linarith
      unfold lerp; constructor <;> nlinarith
    · exact ⟨hs0, hs1⟩

theorem clamp01_range (x : ℝ) : 0 ≤ clamp01 x ∧ clamp01 x ≤ 1 := by
  unfold clamp01
  constructor
  · exact le_min (le_max_right _ _) (by norm_num)
  · exact min_le_right _ _

theorem value_range {a d s r : ℝ} (ha : 0 ≤ a) (hd : 0 ≤ d) (hs0 : 0 ≤ s) (hs1 : s ≤ 1) (c : AdsrSt) {t : ℝ} (ht : c.attackStart ≤ t) :
    0 ≤ c.value a d s r t ∧ c.value a d s r t ≤ 1 := by
  obtain ⟨h0, h1⟩ := ads_range ha hd hs0 hs1 (show 0 ≤ t - c.attackStart by linarith)
  unfold AdsrSt.value
  split
  · exact ⟨h0, h1⟩
  · obtain ⟨c0, c1⟩ := clamp01_range (delerp (c.releaseStart + r) c.releaseStart t)
    exact ⟨mul_nonneg h0 c0, by nlinarith⟩

/-! ## The states of the closure at the sample points -/

section
variable {T : Nat → ℝ} {g : Nat → ℝ} {c : Nat → AdsrSt}

/-- A run of the closure: `g n` is the gate that the call for point `n + 1` sees. -/
def ClosureRun (T : Nat → ℝ) (g : Nat → ℝ) (c : Nat → AdsrSt) : Prop := c 0 = AdsrSt.new.update 0 (g 0) ∧ ∀ n, c (n + 1) = (c n).update (T (n + 1)) (g n)

theorem closure_past (h : ClosureRun T g c) (hT0 : T 0 = 0) (hT : ∀ n, T n ≤ T (n + 1)) (n : Nat) : (c n).attackStart ≤ T n ∧ (c n).releaseStart ≤ T n := by
  induction n with
  | zero =>
    rw [h.1, hT0]; unfold AdsrSt.update AdsrSt.new
    split
    · exact ⟨le_refl _, by norm_num⟩
    · split
      · exact ⟨le_refl _, le_refl _⟩
      · exact ⟨le_refl _, by norm_num⟩
  | succ n ih =>
    have := hT n
    rw [h.2 n]; unfold AdsrSt.update
    have hp : 0 ≤ T (n + 1) := by
      have : ∀ n, 0 ≤ T n := by
        intro n
        induction n with
        | zero => rw [hT0]
        | succ n ih => exact le_trans ih (hT n)
      exact this _
    split
    · exact ⟨le_refl _, by show (-1 : ℝ) ≤ _; linarith⟩
    · split
      · exact ⟨by show (c n).attackStart ≤ _; linarith, le_refl _⟩
      · exact ⟨by linarith, by linarith⟩

theorem point_nonneg (hT0 : T 0 = 0) (hT : ∀ n, T n ≤ T (n + 1)) (n : Nat) : 0 ≤ T n := by
  induction n with
  | zero => rw [hT0]
  | succ n ih => exact le_trans ih (hT n)

theorem point_mono (hT : ∀ n, T n ≤ T (n + 1)) {m n : Nat} (h : m ≤ n) : T m ≤ T n := by
  induction h with
  | refl => exact le_refl _
  | step _ ih => exact le_trans ih (hT _)

/-- While the calls see a closed gate, the release that started at the first of them or before goes on. -/
theorem closure_closed (h : ClosureRun T g c) (hT0 : T 0 = 0) (hT : ∀ n, T n ≤ T (n + 1)) {a : Nat} : ∀ n, a < n → (∀ m, a ≤ m → m < n → g m ≤ 0) →
    0 ≤ (c n).releaseStart ∧ c n = c (a + 1) := by
  intro n hn
  obtain ⟨d, rfl⟩ : ∃ d, n = a + 1 + d := ⟨n - (a + 1), by omega⟩
  clear hn
  induction d with
  | zero =>
    intro hg
    refine ⟨?_, rfl⟩
    show 0 ≤ (c (a + 1)).releaseStart
    rw [h.2 a]
    have hga := hg a (le_refl _) (by omega)
    unfold AdsrSt.update
    rw [if_neg (by rintro ⟨-, h⟩; linarith)]
    split
    · exact point_nonneg hT0 hT _
    · rename_i h'
      by_contra hc
      exact h' ⟨not_le.1 hc, hga⟩
  | succ d ih =>
    intro hg
    obtain ⟨h1, h2⟩ := ih (fun m h1 h2 => hg m h1 (by omega))
    have hgm := hg (a + 1 + d) (by omega) (by omega)
    have e : c (a + 1 + (d + 1)) = c (a + 1 + d) := by
      show c (a + 1 + d + 1) = _
      rw [h.2]; unfold AdsrSt.update
      rw [if_neg (by rintro ⟨-, h⟩; linarith), if_neg (by rintro ⟨h, -⟩; linarith)]
    rw [e]; exact ⟨h1, h2⟩

/-- While the calls see an open gate, the attack that started at the first of them or before goes on. -/
theorem closure_open (h : ClosureRun T g c) {a : Nat} : ∀ n, a < n → (∀ m, a ≤ m → m < n → 0 < g m) →
    (c n).releaseStart < 0 ∧ c n = c (a + 1) := by
  intro n hn
  obtain ⟨d, rfl⟩ : ∃ d, n = a + 1 + d := ⟨n - (a + 1), by omega⟩
  clear hn
  induction d with
  | zero =>
    intro hg
    refine ⟨?_, rfl⟩
    show (c (a + 1)).releaseStart < 0
    rw [h.2 a]
    have hga := hg a (le_refl _) (by omega)
    unfold AdsrSt.update
    split
    · show (-1 : ℝ) < 0; norm_num
    · rename_i h'
      rw [if_neg (by rintro ⟨-, h⟩; linarith)]
      by_contra hc
      exact h' ⟨not_lt.1 hc, hga⟩
  | succ d ih =>
    intro hg
    obtain ⟨h1, h2⟩ := ih (fun m h1 h2 => hg m h1 (by omega))
    have hgm := hg (a + 1 + d) (by omega) (by omega)
    have e : c (a + 1 + (d + 1)) = c (a + 1 + d) := by
      show c (a + 1 + d + 1) = _
      rw [h.2]; unfold AdsrSt.update
      rw [if_neg (by rintro ⟨h, -⟩; linarith), if_neg (by rintro ⟨-, h⟩; linarith)]
    rw [e]; exact ⟨h1, h2⟩

/-- The first point after a time comes soon. -/
theorem point_find (hT0 : T 0 = 0) {lo hi : ℝ} (hlo : 0 < lo) (hT : ∀ n, T n + lo ≤ T (n + 1) ∧ T (n + 1) ≤ T n + hi) {x : ℝ} (hx : 0 ≤ x) :
    ∃ n, x ≤ T n ∧ T n ≤ x + hi ∧ ∀ m, m < n → T m < x := by
  have hun : ∃ n, x ≤ T n := by
    have hlin : ∀ n : Nat, (n : ℝ) * lo ≤ T n := by
      intro n
      induction n with
      | zero => rw [hT0]; simp
      | succ n ih => have := (hT n).1; push_cast; linarith
    obtain ⟨n, hn⟩ := exists_nat_ge (x / lo)
    refine ⟨n, le_trans ?_ (hlin n)⟩
    rwa [div_le_iff₀ hlo] at hn
  classical
  have hhi : 0 ≤ hi := by have := hT 0; linarith
  refine ⟨Nat.find hun, Nat.find_spec hun, ?_, fun m hm => not_le.1 (Nat.find_min hun hm)⟩
  cases hf : Nat.find hun with
  | zero => rw [hT0]; linarith
  | succ n =>
    have h1 := not_le.1 (Nat.find_min hun (show n < Nat.find hun by omega))
    have := (hT n).2
    linarith

end

/-! ## C55 -/

section
variable {rnd : BitVec 64 → ℝ} (hr : ∀ h, 0 ≤ rnd h ∧ rnd h ≤ 1) {a d s r : ℝ} {sr : ℝ} (hsr : 0 < sr) (hrate : 1 / sr ≤ 0.75 * 0.002) {hash : BitVec 64} (w : Nat → Frame ℝ 1)
include hr hsr hrate

/-- The output in terms of the closure run. -/
theorem adsr_out (k : Nat) : ∃ (c : Nat → AdsrSt) (g : Nat → ℝ), ClosureRun (point rnd hash 0.002) g c ∧ (∀ n, g n = w ⌈point rnd hash 0.002 n / (1 / sr)⌉₊ 0) ∧
    ∃ n, point rnd hash 0.002 n ≤ k * (1 / sr) ∧ k * (1 / sr) < point rnd hash 0.002 (n + 1) ∧
      ∃ u, 0 ≤ u ∧ u ≤ 1 ∧ u = (k * (1 / sr) - point rnd hash 0.002 n) / (point rnd hash 0.002 (n + 1) - point rnd hash 0.002 n) ∧
        (adsrLive rnd a d s r).stream (adsrNew sr hash) w k 0 =
          (1 - u) * (c n).value a d s r (point rnd hash 0.002 n) + u * (c (n + 1)).value a d s r (point rnd hash 0.002 (n + 1)) := by
  have hd : 0 < 1 / sr := by positivity
  obtain ⟨n, h1, h2, h3⟩ := C54_interpolation_in_partial rnd hr (adsrEnv a d s r) (adsrNew sr hash) hd hrate w k
  have hv : ∀ n, (inRun (adsrEnv a d s r) (point rnd hash 0.002) (1 / sr) w AdsrSt.new n).2 0 =
      (inRun (adsrEnv a d s r) (point rnd hash 0.002) (1 / sr) w AdsrSt.new n).1.value a d s r (point rnd hash 0.002 n) := by
    intro n; cases n <;> rfl
  refine ⟨fun n => (inRun (adsrEnv a d s r) (point rnd hash 0.002) (1 / sr) w AdsrSt.new n).1, fun n => w ⌈point rnd hash 0.002 n / (1 / sr)⌉₊ 0, ⟨?_, fun n => rfl⟩, fun n => rfl, n, h1, h2,
    _, ?_, ?_, rfl, ?_⟩
  · have : ⌈point rnd hash 0.002 0 / (1 / sr)⌉₊ = 0 := by show ⌈(0 : ℝ) / _⌉₊ = 0; simp
    show AdsrSt.new.update 0 (w 0 0) = AdsrSt.new.update 0 (w ⌈point rnd hash 0.002 0 / (1 / sr)⌉₊ 0)
    rw [this]
  · apply div_nonneg
    · have : point rnd hash 0.002 n ≤ k * (1 / sr) := h1
      linarith
    · have : point rnd hash 0.002 n ≤ k * (1 / sr) := h1
      have : k * (1 / sr) < point rnd hash 0.002 (n + 1) := h2
      linarith
  · have h1' : point rnd hash 0.002 n ≤ k * (1 / sr) := h1
    have h2' : k * (1 / sr) < point rnd hash 0.002 (n + 1) := h2
    rw [div_le_one (by linarith)]
    linarith
  · have := h3 0
    rw [← hv, ← hv]
    exact this

theorem points_ok : point rnd hash 0.002 0 = 0 ∧ (∀ n, point rnd hash 0.002 n + 0.0015 ≤ point rnd hash 0.002 (n + 1) ∧ point rnd hash 0.002 (n + 1) ≤ point rnd hash 0.002 n + 0.0025) ∧
    ∀ n, point rnd hash 0.002 n ≤ point rnd hash 0.002 (n + 1) := by
  have := fun n => C54_jitter rnd hr hash 0.002 (by norm_num) n
  refine ⟨rfl, fun n => ?_, fun n => ?_⟩
  · obtain ⟨-, h1, h2⟩ := this n
    constructor <;> norm_num at h1 h2 ⊢ <;> linarith
  · obtain ⟨-, h1, h2⟩ := this n
    norm_num at h1; linarith

/-- **C55, range.** Whatever the gate does, a new `adsr_live` stays within [0, 1].
Missing from the full claim: sounding after a reset, where it fails (`C55_violation_reset`). -/
theorem C55_range_partial (ha : 0 ≤ a) (hd : 0 ≤ d) (hs0 : 0 ≤ s) (hs1 : s ≤ 1) (k : Nat) :
    0 ≤ (adsrLive rnd a d s r).stream (adsrNew sr hash) w k 0 ∧ (adsrLive rnd a d s r).stream (adsrNew sr hash) w k 0 ≤ 1 := by
  obtain ⟨c, g, hc, -, n, -, -, u, hu0, hu1, -, ho⟩ := adsr_out hr hsr hrate (a := a) (d := d) (s := s) (r := r) (hash := hash) w k
  obtain ⟨p0, -, pm⟩ := points_ok hr hsr hrate (hash := hash)
  obtain ⟨l0, l1⟩ := value_range (r := r) ha hd hs0 hs1 (c n) (closure_past hc p0 pm n).1
  obtain ⟨m0, m1⟩ := value_range (r := r) ha hd hs0 hs1 (c (n + 1)) (closure_past hc p0 pm (n + 1)).1
  rw [ho]
  constructor
  · have := mul_nonneg (show 0 ≤ 1 - u by linarith) l0
    have := mul_nonneg hu0 m0
    linarith
  · nlinarith [mul_nonneg (show 0 ≤ 1 - u by linarith) (show 0 ≤ 1 - (c n).value a d s r (point rnd hash 0.002 n) by linarith),
      mul_nonneg hu0 (show 0 ≤ 1 - (c (n + 1)).value a d s r (point rnd hash 0.002 (n + 1)) by linarith)]

omit hr in
theorem gate_index {k0 k n : Nat} (h0 : (k0 : ℝ) * (1 / sr) ≤ point rnd hash 0.002 n) (h1 : point rnd hash 0.002 n ≤ k * (1 / sr)) :
    k0 ≤ ⌈point rnd hash 0.002 n / (1 / sr)⌉₊ ∧ ⌈point rnd hash 0.002 n / (1 / sr)⌉₊ ≤ k := by
  have hd : 0 < 1 / sr := by positivity
  constructor
  · have : (k0 : ℝ) ≤ point rnd hash 0.002 n / (1 / sr) := by rw [le_div_iff₀ hd]; exact h0
    exact_mod_cast le_trans this (Nat.le_ceil _)
  · rw [Nat.ceil_le, div_le_iff₀ hd]; exact h1

/-- **C55, release.** Once the gate has been closed for the release time (and up to 7.5 ms, the spacing of the sample points), the output is zero. -/
theorem C55_release (hr0 : 0 < r) (k0 k : Nat) (hgate : ∀ j, k0 ≤ j → j ≤ k → w j 0 ≤ 0) (hk : k0 * (1 / sr) + r + 0.0075 ≤ k * (1 / sr)) :
    (adsrLive rnd a d s r).stream (adsrNew sr hash) w k 0 = 0 := by
  obtain ⟨c, g, hc, hg, n, hn1, hn2, u, hu0, hu1, -, ho⟩ := adsr_out hr hsr hrate (a := a) (d := d) (s := s) (r := r) (hash := hash) w k
  obtain ⟨p0, pj, pm⟩ := points_ok hr hsr hrate (hash := hash)
  have hdp : 0 < 1 / sr := by positivity
  obtain ⟨n0, f1, f2, -⟩ := point_find p0 (by norm_num) pj (show 0 ≤ (k0 : ℝ) * (1 / sr) by positivity)
  have hclosed : ∀ m, n0 < m → m ≤ n + 1 → 0 ≤ (c m).releaseStart ∧ c m = c (n0 + 1) := by
    intro m hm hmn
    refine closure_closed hc p0 pm m hm ?_
    intro j hj1 hj2
    rw [hg]
    obtain ⟨i1, i2⟩ := gate_index hsr hrate (rnd := rnd) (hash := hash) (k0 := k0) (k := k) (n := j) (le_trans f1 (point_mono pm hj1)) (le_trans (point_mono pm (by omega)) hn1)
    exact hgate _ i1 i2
  have hrs := (closure_past hc p0 pm (n0 + 1)).2
  have hTN := (pj n0).2
  have hTn := (pj n).2
  have hzero : ∀ m, n0 < m → m ≤ n + 1 → (c (n0 + 1)).releaseStart + r ≤ point rnd hash 0.002 m → (c m).value a d s r (point rnd hash 0.002 m) = 0 := by
    intro m hm hmn hle
    obtain ⟨z1, z2⟩ := hclosed m hm hmn
    unfold AdsrSt.value
    rw [if_neg (not_lt.2 z1), z2]
    have : delerp ((c (n0 + 1)).releaseStart + r) (c (n0 + 1)).releaseStart (point rnd hash 0.002 m) ≤ 0 := by
      unfold delerp
      apply div_nonpos_of_nonneg_of_nonpos <;> linarith
    have hz : clamp01 (delerp ((c (n0 + 1)).releaseStart + r) (c (n0 + 1)).releaseStart (point rnd hash 0.002 m)) = 0 := by
      unfold clamp01
      simp [this]
    rw [hz, mul_zero]
  have hn0 : n0 < n := by
    by_contra hcon
    have := point_mono (T := point rnd hash 0.002) pm (show n ≤ n0 by omega)
    norm_num at *
    linarith
  rw [ho, hzero n hn0 (by omega) (by norm_num at *; linarith), hzero (n + 1) (by omega) (by omega) (by norm_num at *; linarith)]
  ring

/-- **C55, sustain.** Once the gate has been open for the attack and decay times (and up to 7.5 ms), the output is the sustain level. -/
theorem C55_sustain (ha : 0 ≤ a) (hd : 0 ≤ d) (k0 k : Nat) (hgate : ∀ j, k0 ≤ j → j ≤ k → 0 < w j 0) (hk : k0 * (1 / sr) + a + d + 0.0075 ≤ k * (1 / sr)) :
    (adsrLive rnd a d s r).stream (adsrNew sr hash) w k 0 = s := by
  obtain ⟨c, g, hc, hg, n, hn1, hn2, u, hu0, hu1, -, ho⟩ := adsr_out hr hsr hrate (a := a) (d := d) (s := s) (r := r) (hash := hash) w k
  obtain ⟨p0, pj, pm⟩ := points_ok hr hsr hrate (hash := hash)
  have hdp : 0 < 1 / sr := by positivity
  obtain ⟨n0, f1, f2, -⟩ := point_find p0 (by norm_num) pj (show 0 ≤ (k0 : ℝ) * (1 / sr) by positivity)
  have hopen : ∀ m, n0 < m → m ≤ n + 1 → (c m).releaseStart < 0 ∧ c m = c (n0 + 1) := by
    intro m hm hmn
    refine closure_open hc m hm ?_
    intro j hj1 hj2
    rw [hg]
    obtain ⟨i1, i2⟩ := gate_index hsr hrate (rnd := rnd) (hash := hash) (k0 := k0) (k := k) (n := j) (le_trans f1 (point_mono pm hj1)) (le_trans (point_mono pm (by omega)) hn1)
    exact hgate _ i1 i2
  have has := (closure_past hc p0 pm (n0 + 1)).1
  have hTN := (pj n0).2
  have hTn := (pj n).2
  have hsus : ∀ m, n0 < m → m ≤ n + 1 → (c (n0 + 1)).attackStart + a + d ≤ point rnd hash 0.002 m → (c m).value a d s r (point rnd hash 0.002 m) = s := by
    intro m hm hmn hle
    obtain ⟨z1, z2⟩ := hopen m hm hmn
    unfold AdsrSt.value
    rw [if_pos z1, z2]
    unfold ads
    rw [if_neg (by linarith), if_neg (by linarith)]
  have hn0 : n0 < n := by
    by_contra hcon
    have := point_mono (T := point rnd hash 0.002) pm (show n ≤ n0 by omega)
    norm_num at *
    linarith
  rw [ho, hsus n hn0 (by omega) (by norm_num at *; linarith), hsus (n + 1) (by omega) (by omega) (by norm_num at *; linarith)]
  ring

/-- **C55, attack.** When the gate opens at sample `k0` after being closed from the start, an attack begins within 5 ms after it, and as long as the gate stays open, the output
interpolates the attack, decay and sustain curve of that start. -/
theorem C55_attack (k0 k : Nat) (hk0 : 0 < k0) (hclosed : ∀ j, j < k0 → w j 0 ≤ 0) (hgate : ∀ j, k0 ≤ j → j ≤ k → 0 < w j 0) (hk : k0 * (1 / sr) + 0.005 ≤ k * (1 / sr)) :
    ∃ start, k0 * (1 / sr) ≤ start ∧ start ≤ k0 * (1 / sr) + 0.005 ∧ ∃ n u, point rnd hash 0.002 n ≤ k * (1 / sr) ∧ k * (1 / sr) < point rnd hash 0.002 (n + 1) ∧ start ≤ point rnd hash 0.002 n ∧
      u = (k * (1 / sr) - point rnd hash 0.002 n) / (point rnd hash 0.002 (n + 1) - point rnd hash 0.002 n) ∧
      (adsrLive rnd a d s r).stream (adsrNew sr hash) w k 0 = (1 - u) * curve a d s (point rnd hash 0.002 n - start) + u * curve a d s (point rnd hash 0.002 (n + 1) - start) := by
  obtain ⟨c, g, hc, hg, n, hn1, hn2, u, hu0, hu1, hu, ho⟩ := adsr_out hr hsr hrate (a := a) (d := d) (s := s) (r := r) (hash := hash) w k
  obtain ⟨p0, pj, pm⟩ := points_ok hr hsr hrate (hash := hash)
  have hdp : 0 < 1 / sr := by positivity
  obtain ⟨n1, f1, f2, -⟩ := point_find p0 (by norm_num) pj (show 0 ≤ (k0 : ℝ) * (1 / sr) by positivity)
  have hex : ∃ m, k0 ≤ ⌈point rnd hash 0.002 m / (1 / sr)⌉₊ := by
    refine ⟨n1, ?_⟩
    have : (k0 : ℝ) ≤ point rnd hash 0.002 n1 / (1 / sr) := by rw [le_div_iff₀ hdp]; exact f1
    exact_mod_cast le_trans this (Nat.le_ceil _)
  classical
  obtain ⟨n0, hn0, hmin⟩ : ∃ n0, k0 ≤ ⌈point rnd hash 0.002 n0 / (1 / sr)⌉₊ ∧ ∀ m, m < n0 → ⌈point rnd hash 0.002 m / (1 / sr)⌉₊ < k0 :=
    ⟨Nat.find hex, Nat.find_spec hex, fun m hm => not_le.1 (Nat.find_min hex hm)⟩
  have hn01 : n0 ≤ n1 := by
    by_contra hcon
    have := hmin n1 (by omega)
    have h2 : (k0 : ℝ) ≤ point rnd hash 0.002 n1 / (1 / sr) := by rw [le_div_iff₀ hdp]; exact f1
    have h3 : k0 ≤ ⌈point rnd hash 0.002 n1 / (1 / sr)⌉₊ := by exact_mod_cast le_trans h2 (Nat.le_ceil _)
    omega
  have hpos : 0 < n0 := by
    rcases Nat.eq_zero_or_pos n0 with h | h
    · rw [h] at hn0
      have : ⌈point rnd hash 0.002 0 / (1 / sr)⌉₊ = 0 := by show ⌈(0 : ℝ) / _⌉₊ = 0; simp
      omega
    · exact h
  have hlow : (k0 : ℝ) * (1 / sr) - 1 / sr < point rnd hash 0.002 n0 := by
    have h1 : k0 - 1 < ⌈point rnd hash 0.002 n0 / (1 / sr)⌉₊ := by omega
    rw [Nat.lt_ceil, lt_div_iff₀ hdp, Nat.cast_sub (by omega)] at h1
    push_cast at h1; linarith
  have hstart1 : (k0 : ℝ) * (1 / sr) ≤ point rnd hash 0.002 (n0 + 1) := by
    have := (pj n0).1
    norm_num at hrate this ⊢
    norm_num at hlow
    linarith
  have hstart2 : point rnd hash 0.002 (n0 + 1) ≤ k0 * (1 / sr) + 0.005 := by
    have h1 := (pj n0).2
    have h2 := point_mono (T := point rnd hash 0.002) pm hn01
    norm_num at h1 f2 ⊢
    linarith
  have hn : n0 < n := by
    by_contra hcon
    have := point_mono (T := point rnd hash 0.002) pm (show n + 1 ≤ n0 + 1 by omega)
    linarith
  have hrel := (closure_closed hc p0 pm (a := 0) n0 hpos (fun m _ hm => by rw [hg]; exact hclosed _ (hmin m hm))).1
  have hgopen : ∀ j, n0 ≤ j → j ≤ n → 0 < g j := by
    intro j h1 h2
    rw [hg]
    refine hgate _ (le_trans hn0 (Nat.ceil_mono ?_)) ?_
    · exact div_le_div_of_nonneg_right (point_mono pm h1) hdp.le
    · rw [Nat.ceil_le, div_le_iff₀ hdp]; exact le_trans (point_mono pm h2) hn1
  have hc1 : c (n0 + 1) = ⟨point rnd hash 0.002 (n0 + 1), -1⟩ := by
    rw [hc.2]; unfold AdsrSt.update
    rw [if_pos ⟨hrel, hgopen n0 (le_refl _) (by omega)⟩]
  have hval : ∀ m, n0 < m → m ≤ n + 1 → (c m).value a d s r (point rnd hash 0.002 m) = curve a d s (point rnd hash 0.002 m - point rnd hash 0.002 (n0 + 1)) := by
    intro m h1 h2
    obtain ⟨z1, z2⟩ := closure_open hc m h1 (fun j hj1 hj2 => hgopen j hj1 (by omega))
    unfold AdsrSt.value
    rw [if_pos z1, z2, hc1, ads_curve]
  refine ⟨point rnd hash 0.002 (n0 + 1), hstart1, hstart2, n, u, hn1, hn2, point_mono pm (by omega), hu, ?_⟩
  rw [ho, hval n hn (by omega), hval (n + 1) (by omega) (by omega)]

/-- **C55, attack at the start.** While the gate is open from the start, the output interpolates the attack, decay and sustain curve. -/
theorem C55_attack_first (k : Nat) (hgate : ∀ j, j ≤ k → 0 < w j 0) :
    ∃ n u, point rnd hash 0.002 n ≤ k * (1 / sr) ∧ k * (1 / sr) < point rnd hash 0.002 (n + 1) ∧
      u = (k * (1 / sr) - point rnd hash 0.002 n) / (point rnd hash 0.002 (n + 1) - point rnd hash 0.002 n) ∧
      (adsrLive rnd a d s r).stream (adsrNew sr hash) w k 0 = (1 - u) * curve a d s (point rnd hash 0.002 n) + u * curve a d s (point rnd hash 0.002 (n + 1)) := by
  obtain ⟨c, g, hc, hg, n, hn1, hn2, u, hu0, hu1, hu, ho⟩ := adsr_out hr hsr hrate (a := a) (d := d) (s := s) (r := r) (hash := hash) w k
  obtain ⟨p0, pj, pm⟩ := points_ok hr hsr hrate (hash := hash)
  have hdp : 0 < 1 / sr := by positivity
  have hgopen : ∀ j, j ≤ n → 0 < g j := by
    intro j h2
    rw [hg]
    refine hgate _ ?_
    rw [Nat.ceil_le, div_le_iff₀ hdp]; exact le_trans (point_mono pm h2) hn1
  have hcm : ∀ m, m ≤ n + 1 → c m = ⟨0, -1⟩ := by
    intro m
    induction m with
    | zero =>
      intro _
      rw [hc.1]; unfold AdsrSt.update AdsrSt.new
      rw [if_neg (by rintro ⟨h, -⟩; norm_num at h), if_neg (by rintro ⟨-, h⟩; have := hgopen 0 (by omega); linarith)]
    | succ m ih =>
      intro hm
      rw [hc.2, ih (by omega)]; unfold AdsrSt.update
      rw [if_neg (by rintro ⟨h, -⟩; norm_num at h), if_neg (by rintro ⟨-, h⟩; have := hgopen m (by omega); linarith)]
  refine ⟨n, u, hn1, hn2, hu, ?_⟩
  rw [ho, hcm n (by omega), hcm (n + 1) (le_refl _)]
  unfold AdsrSt.value
  rw [if_pos (by norm_num), if_pos (by norm_num)]
  simp only [sub_zero, ads_curve]

/-- The first call that sees sample `k0` or a later one. -/
theorem switch (k0 : Nat) : ∃ n0, k0 ≤ ⌈point rnd hash 0.002 n0 / (1 / sr)⌉₊ ∧ (∀ m, m < n0 → ⌈point rnd hash 0.002 m / (1 / sr)⌉₊ < k0) ∧
    k0 * (1 / sr) ≤ point rnd hash 0.002 (n0 + 1) ∧ point rnd hash 0.002 (n0 + 1) ≤ k0 * (1 / sr) + 0.005 := by
  obtain ⟨p0, pj, pm⟩ := points_ok hr hsr hrate (hash := hash)
  have hdp : 0 < 1 / sr := by positivity
  obtain ⟨n1, f1, f2, -⟩ := point_find p0 (by norm_num) pj (show 0 ≤ (k0 : ℝ) * (1 / sr) by positivity)
  have hex : ∃ m, k0 ≤ ⌈point rnd hash 0.002 m / (1 / sr)⌉₊ := by
    refine ⟨n1, ?_⟩
    have : (k0 : ℝ) ≤ point rnd hash 0.002 n1 / (1 / sr) := by rw [le_div_iff₀ hdp]; exact f1
    exact_mod_cast le_trans this (Nat.le_ceil _)
  have hreach : k0 ≤ ⌈point rnd hash 0.002 n1 / (1 / sr)⌉₊ := by
    have : (k0 : ℝ) ≤ point rnd hash 0.002 n1 / (1 / sr) := by rw [le_div_iff₀ hdp]; exact f1
    exact_mod_cast le_trans this (Nat.le_ceil _)
  classical
  obtain ⟨n0, hn0, hmin⟩ : ∃ n0, k0 ≤ ⌈point rnd hash 0.002 n0 / (1 / sr)⌉₊ ∧ ∀ m, m < n0 → ⌈point rnd hash 0.002 m / (1 / sr)⌉₊ < k0 :=
    ⟨Nat.find hex, Nat.find_spec hex, fun m hm => not_le.1 (Nat.find_min hex hm)⟩
  have hn01 : n0 ≤ n1 := by
    by_contra hcon
    have := hmin n1 (by omega)
    omega
  refine ⟨n0, hn0, hmin, ?_, ?_⟩
  · rcases Nat.eq_zero_or_pos k0 with h | h
    · rw [h]; push_cast; rw [zero_mul]; exact point_nonneg p0 pm _
    · have h1 : k0 - 1 < ⌈point rnd hash 0.002 n0 / (1 / sr)⌉₊ := by omega
      rw [Nat.lt_ceil, lt_div_iff₀ hdp, Nat.cast_sub (by omega)] at h1
      push_cast at h1
      have := (pj n0).1
      norm_num at hrate this ⊢
      norm_num at h1
      linarith
  · have h1 := (pj n0).2
    have h2 := point_mono (T := point rnd hash 0.002) pm hn01
    norm_num at h1 f2 ⊢
    linarith

/-- **C55, a whole note.** When the gate is closed before sample `j0`, open from there to sample `k0` (at least 5 ms) and then closed, an attack begins within 5 ms after the
opening and a release within 5 ms after the closing. From there on the output interpolates the attack, decay and sustain curve of that start, times a straight fall
to zero during the release time. -/
theorem C55_note (hr0 : 0 < r) (j0 k0 k : Nat) (hj0 : 0 < j0) (hclosed : ∀ j, j < j0 → w j 0 ≤ 0) (hopen : ∀ j, j0 ≤ j → j < k0 → 0 < w j 0) (hlong : j0 * (1 / sr) + 0.005 ≤ k0 * (1 / sr))
    (hgate : ∀ j, k0 ≤ j → j ≤ k → w j 0 ≤ 0) (hk : k0 * (1 / sr) + 0.005 ≤ k * (1 / sr)) :
    ∃ start stop, j0 * (1 / sr) ≤ start ∧ start ≤ j0 * (1 / sr) + 0.005 ∧ k0 * (1 / sr) ≤ stop ∧ stop ≤ k0 * (1 / sr) + 0.005 ∧
      ∃ n u, point rnd hash 0.002 n ≤ k * (1 / sr) ∧ k * (1 / sr) < point rnd hash 0.002 (n + 1) ∧ stop ≤ point rnd hash 0.002 n ∧
      u = (k * (1 / sr) - point rnd hash 0.002 n) / (point rnd hash 0.002 (n + 1) - point rnd hash 0.002 n) ∧
      (adsrLive rnd a d s r).stream (adsrNew sr hash) w k 0
        = (1 - u) * (curve a d s (point rnd hash 0.002 n - start) * fall r (point rnd hash 0.002 n - stop))
          + u * (curve a d s (point rnd hash 0.002 (n + 1) - start) * fall r (point rnd hash 0.002 (n + 1) - stop)) := by
  obtain ⟨c, g, hc, hg, n, hn1, hn2, u, hu0, hu1, hu, ho⟩ := adsr_out hr hsr hrate (a := a) (d := d) (s := s) (r := r) (hash := hash) w k
  obtain ⟨p0, pj, pm⟩ := points_ok hr hsr hrate (hash := hash)
  have hdp : 0 < 1 / sr := by positivity
  obtain ⟨m0, q1, q2, q3, q4⟩ := switch hr hsr hrate (hash := hash) j0
  obtain ⟨n0, r1, r2, r3, r4⟩ := switch hr hsr hrate (hash := hash) k0
  have hm0 : 0 < m0 := by
    rcases Nat.eq_zero_or_pos m0 with h | h
    · rw [h] at q1
      have : ⌈point rnd hash 0.002 0 / (1 / sr)⌉₊ = 0 := by show ⌈(0 : ℝ) / _⌉₊ = 0; simp
      omega
    · exact h
  have hmono : ∀ x y, x ≤ y → ⌈point rnd hash 0.002 x / (1 / sr)⌉₊ ≤ ⌈point rnd hash 0.002 y / (1 / sr)⌉₊ := fun x y h =>
    Nat.ceil_mono (div_le_div_of_nonneg_right (point_mono pm h) hdp.le)
  have hjk : j0 < k0 := by
    have : (j0 : ℝ) * (1 / sr) < k0 * (1 / sr) := lt_of_lt_of_le (by norm_num) hlong
    exact_mod_cast lt_of_mul_lt_mul_right this hdp.le
  have hmn : m0 < n0 := by
    by_contra hcon
    have h1 := point_mono (T := point rnd hash 0.002) pm (show n0 ≤ m0 by omega)
    have h2 := (pj m0).1
    have h3 : point rnd hash 0.002 m0 ≤ k0 * (1 / sr) - 1 / sr := by
      norm_num at hrate h2 q4 hlong ⊢
      linarith
    have h4 : ⌈point rnd hash 0.002 n0 / (1 / sr)⌉₊ ≤ k0 - 1 := by
      rw [Nat.ceil_le, div_le_iff₀ hdp, Nat.cast_sub (by omega)]
      push_cast
      linarith
    omega
  have hn : n0 < n := by
    by_contra hcon
    have := point_mono (T := point rnd hash 0.002) pm (show n + 1 ≤ n0 + 1 by omega)
    linarith
  have hrel := (closure_closed hc p0 pm (a := 0) m0 hm0 (fun m _ hm => by rw [hg]; exact hclosed _ (q2 m hm))).1
  have hgopen : ∀ j, m0 ≤ j → j < n0 → 0 < g j := by
    intro j h1 h2
    rw [hg]
    exact hopen _ (le_trans q1 (hmono _ _ h1)) (r2 j h2)
  have hgclosed : ∀ j, n0 ≤ j → j ≤ n → g j ≤ 0 := by
    intro j h1 h2
    rw [hg]
    refine hgate _ (le_trans r1 (hmono _ _ h1)) ?_
    rw [Nat.ceil_le, div_le_iff₀ hdp]; exact le_trans (point_mono pm h2) hn1
  have hc1 : c (m0 + 1) = ⟨point rnd hash 0.002 (m0 + 1), -1⟩ := by
    rw [hc.2]; unfold AdsrSt.update
    rw [if_pos ⟨hrel, hgopen m0 (le_refl _) hmn⟩]
  have hc2 : c n0 = ⟨point rnd hash 0.002 (m0 + 1), -1⟩ := by
    rw [← hc1]
    exact (closure_open hc n0 hmn (fun j h1 h2 => hgopen j h1 h2)).2
  have hc3 : c (n0 + 1) = ⟨point rnd hash 0.002 (m0 + 1), point rnd hash 0.002 (n0 + 1)⟩ := by
    rw [hc.2, hc2]; unfold AdsrSt.update
    rw [if_neg (by rintro ⟨h, -⟩; norm_num at h), if_pos ⟨by norm_num, hgclosed n0 (le_refl _) (by omega)⟩]
  have hval : ∀ m, n0 < m → m ≤ n + 1 → (c m).value a d s r (point rnd hash 0.002 m)
      = curve a d s (point rnd hash 0.002 m - point rnd hash 0.002 (m0 + 1)) * fall r (point rnd hash 0.002 m - point rnd hash 0.002 (n0 + 1)) := by
    intro m h1 h2
    obtain ⟨z1, z2⟩ := closure_closed hc p0 pm m h1 (fun j hj1 hj2 => hgclosed j hj1 (by omega))
    unfold AdsrSt.value
    rw [if_neg (not_lt.2 z1), z2, hc3, ads_curve, clamp_fall hr0]
  refine ⟨point rnd hash 0.002 (m0 + 1), point rnd hash 0.002 (n0 + 1), q3, q4, r3, r4, n, u, hn1, hn2, point_mono pm (by omega), hu, ?_⟩
  rw [ho, hval n hn (by omega), hval (n + 1) (by omega) (by omega)]

end

/-- `adsr_live` in blocks is `adsr_live` in ticks. -/
theorem C55_block_equals_tick (rnd : BitVec 64 → ℝ) (hr : ∀ h, 0 ≤ rnd h ∧ rnd h ≤ 1) (a d s r sr : ℝ) (hsr : 0 < sr) (hrate : 1 / sr ≤ 0.75 * 0.002) (hash : BitVec 64) (w : Nat → Frame ℝ 1)
    (cs : List (Call ℝ 1 1)) (hcs : ∀ c ∈ cs, c.ok) :
    ((adsrLive rnd a d s r).exec w cs 0 (adsrNew sr hash)).2 = ((adsrLive rnd a d s r).exec w (unblock cs) 0 (adsrNew sr hash)).2 :=
  C54_block_equals_tick_in_partial rnd hr (adsrEnv a d s r) w cs hcs _ (C54_new_in 0.002 sr hash AdsrSt.new hsr hrate)

example : (0 : ℝ) < 44100 ∧ (1 : ℝ) / 44100 ≤ 0.75 * 0.002 := by norm_num

/-- A gate open from 1 s to 2 s meets the hypotheses of `C55_attack` and, later, of `C55_release`. -/
example : ∃ w : Nat → Frame ℝ 1, (∀ j, j < 44100 → w j 0 ≤ 0) ∧ (∀ j, 44100 ≤ j → j ≤ 88199 → 0 < w j 0) ∧ (∀ j, 88200 ≤ j → j ≤ 10 ^ 6 → w j 0 ≤ 0) ∧
    ((88200 : Nat) : ℝ) * (1 / 44100) + 0.5 + 0.0075 ≤ ((10 ^ 6 : Nat) : ℝ) * (1 / 44100) := by
  refine ⟨fun j _ => if 44100 ≤ j ∧ j < 88200 then 1 else 0, ?_, ?_, ?_, ?_⟩
  · intro j h; show (if 44100 ≤ j ∧ j < 88200 then (1 : ℝ) else 0) ≤ 0; rw [if_neg (by omega)]
  · intro j h1 h2; show 0 < (if 44100 ≤ j ∧ j < 88200 then (1 : ℝ) else 0); rw [if_pos (by omega)]; norm_num
  · intro j h1 h2; show (if 44100 ≤ j ∧ j < 88200 then (1 : ℝ) else 0) ≤ 0; rw [if_neg (by omega)]
  · norm_num

/-! ## Where C55 fails -/

theorem point_half (hash : BitVec 64) (n : Nat) : point (fun _ => 1 / 2) hash 0.002 n = n * 0.002 := by
  induction n with
  | zero => show (0 : ℝ) = _; simp
  | succ n ih => show point (fun _ => 1 / 2) hash 0.002 n + _ = _; rw [ih]; push_cast; ring

/-- **C55 fails**: with a gate that never opens, the envelope sounds: it plays the attack faded by the release. -/
theorem C55_violation_closed : ∃ (rnd : BitVec 64 → ℝ) (a d s r sr : ℝ) (w : Nat → Frame ℝ 1) (k : Nat), (∀ h, 0 ≤ rnd h ∧ rnd h < 1) ∧ 0 < a ∧ 0 ≤ d ∧ 0 ≤ s ∧ s ≤ 1 ∧ 0 < r ∧ 0 < sr ∧ 1 / sr ≤ 0.75 * 0.002 ∧
    (∀ j, w j 0 ≤ 0) ∧ (adsrLive rnd a d s r).stream (adsrNew sr 0) w k 0 = 0.998 := by
  refine ⟨fun _ => 1 / 2, 0.002, 0, 1, 1, 1000, fun _ _ => 0, 2, fun _ => by norm_num, by norm_num, by norm_num, by norm_num, by norm_num, by norm_num, by norm_num, by norm_num, fun _ => le_refl _, ?_⟩
  obtain ⟨c, g, hc, hg, n, hn1, hn2, u, -, -, hu, ho⟩ := adsr_out (rnd := fun _ => 1 / 2) (fun _ => by norm_num) (a := 0.002) (d := 0) (s := 1) (r := 1) (sr := 1000) (by norm_num) (by norm_num) (hash := 0) (fun _ _ => 0) 2
  rw [point_half] at hn1 hn2
  have hn : n = 1 := by
    norm_num at hn1 hn2
    omega
  subst hn
  have hu0 : u = 0 := by rw [hu, point_half, point_half]; norm_num
  have hc0 : c 0 = ⟨0, 0⟩ := by
    rw [hc.1, hg]; unfold AdsrSt.update AdsrSt.new
    rw [if_neg (by norm_num), if_pos (by norm_num)]
  have hc1 : c 1 = ⟨0, 0⟩ := by
    rw [hc.2, hc0, hg]; unfold AdsrSt.update
    rw [if_neg (by norm_num), if_neg (by norm_num)]
  rw [ho, hu0, hc1, point_half]
  unfold AdsrSt.value ads delerp clamp01
  norm_num

/-- **C55 fails**: after a reset during a note the output is negative, because the start of the attack is kept while time starts again from zero. -/
theorem C55_violation_reset : ∃ (rnd : BitVec 64 → ℝ) (a d s r sr : ℝ) (w : Nat → Frame ℝ 1), (∀ h, 0 ≤ rnd h ∧ rnd h < 1) ∧ 0 < a ∧ 0 ≤ d ∧ 0 ≤ s ∧ s ≤ 1 ∧ 0 < r ∧ 0 < sr ∧ 1 / sr ≤ 0.75 * 0.002 ∧
    ∃ y ∈ ((adsrLive rnd a d s r).exec w [.tick, .tick, .tick, .reset, .tick] 0 (adsrNew sr 0)).2, y 0 < 0 := by
  refine ⟨fun _ => 1 / 2, 0.1, 0, 1, 1, 1000, fun j _ => if j < 2 then 0 else 1, fun _ => by norm_num, by norm_num, by norm_num, by norm_num, by norm_num, by norm_num, by norm_num, by norm_num, ?_⟩
  obtain ⟨n, hn1, hn2, hseg⟩ := in_run (rnd := fun _ => 1 / 2) (fun _ => by norm_num) (adsrEnv 0.1 0 1 1) (adsrNew 1000 0) ⟨by show (0 : ℝ) < 1 / 1000; norm_num, by show (1 : ℝ) / 1000 ≤ 0.75 * 0.002; norm_num⟩
    (fun j _ => if j < 2 then 0 else 1) 2
  have hT : ∀ n, point (fun _ => 1 / 2) (adsrNew 1000 0).hash (adsrNew 1000 0).interval n = n * 0.002 := fun n => point_half _ n
  have hdt : (adsrNew 1000 0).dt = 1 / 1000 := rfl
  rw [hT, hdt] at hn1 hn2
  have hn : n = 1 := by
    norm_num at hn1 hn2
    omega
  subst hn
  have hclo := hseg.clo
  have hrun : (inRun (adsrEnv 0.1 0 1 1) (point (fun _ => 1 / 2) (adsrNew 1000 0).hash (adsrNew 1000 0).interval) (adsrNew 1000 0).dt (fun j _ => if j < 2 then 0 else 1) (adsrNew 1000 0).clo 2).1 = ⟨0.004, -1⟩ := by
    have e0 : ⌈point (fun _ => 1 / 2) (adsrNew 1000 0).hash (adsrNew 1000 0).interval 0 / (adsrNew 1000 0).dt⌉₊ = 0 := by rw [hT, hdt]; norm_num
    have e1 : ⌈point (fun _ => 1 / 2) (adsrNew 1000 0).hash (adsrNew 1000 0).interval 1 / (adsrNew 1000 0).dt⌉₊ = 2 := by rw [hT, hdt]; norm_num
    have r0 : (inRun (adsrEnv 0.1 0 1 1) (point (fun _ => 1 / 2) (adsrNew 1000 0).hash (adsrNew 1000 0).interval) (adsrNew 1000 0).dt (fun j _ => if j < 2 then 0 else 1) (adsrNew 1000 0).clo 0).1 = ⟨0, 0⟩ := by
      show AdsrSt.update ⟨0, -1⟩ 0 (if 0 < 2 then 0 else 1) = _
      unfold AdsrSt.update; rw [if_neg (by norm_num), if_pos (by norm_num)]
    have r1 : (inRun (adsrEnv 0.1 0 1 1) (point (fun _ => 1 / 2) (adsrNew 1000 0).hash (adsrNew 1000 0).interval) (adsrNew 1000 0).dt (fun j _ => if j < 2 then 0 else 1) (adsrNew 1000 0).clo 1).1 = ⟨0, 0⟩ := by
      simp only [inRun, adsrEnv] at r0 ⊢
      rw [r0, e0]
      unfold AdsrSt.update; rw [if_neg (by norm_num), if_neg (by norm_num)]
    simp only [inRun, adsrEnv] at r1 ⊢
    rw [r1, e1, hT]
    unfold AdsrSt.update; rw [if_pos (by norm_num)]
    norm_num
  have hclo' := hclo.trans hrun
  refine ⟨_, by simp only [Node.exec]; exact List.mem_cons_of_mem _ (List.mem_cons_of_mem _ (List.mem_cons_of_mem _ List.mem_cons_self)), ?_⟩
  -- the state after three ticks has the closure state above
  have h3 : ((adsrLive (fun _ => 1 / 2) 0.1 0 1 1).tick ((adsrLive (fun _ => 1 / 2) 0.1 0 1 1).tick ((adsrLive (fun _ => 1 / 2) 0.1 0 1 1).tick (adsrNew 1000 0) (fun _ => if 0 < 2 then 0 else 1)).1 (fun _ => if 0 + 1 < 2 then 0 else 1)).1
      (fun _ => if 0 + 1 + 1 < 2 then 0 else 1)).1.clo = ⟨0.004, -1⟩ := hclo'
  generalize ((adsrLive (fun _ => 1 / 2) 0.1 0 1 1).tick ((adsrLive (fun _ => 1 / 2) 0.1 0 1 1).tick ((adsrLive (fun _ => 1 / 2) 0.1 0 1 1).tick (adsrNew 1000 0) (fun _ => if 0 < 2 then 0 else 1)).1 (fun _ => if 0 + 1 < 2 then 0 else 1)).1
      (fun _ => if 0 + 1 + 1 < 2 then 0 else 1)).1 = s3 at *
  show ((resetIn s3).norm (nextIn (fun _ => 1 / 2) (adsrEnv 0.1 0 1 1) (fun _ => if 3 < 2 then 0 else 1))).v 0 < 0
  unfold EnvSt.norm
  rw [if_pos (show (resetIn s3).t1 ≤ (resetIn s3).t from le_refl _)]
  unfold nextIn
  rw [if_pos ⟨rfl, rfl⟩]
  show lerp ((s3.clo.update 0 (if 3 < 2 then 0 else 1)).value 0.1 0 1 1 0) _ ((0 - 0) / _) < 0
  rw [h3, sub_zero, zero_div]
  unfold lerp AdsrSt.update AdsrSt.value ads
  norm_num [lerp]

end Fundsp.Env
