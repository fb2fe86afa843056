import Verif.Osc.PluckLemmas
import Verif.Core.ResetProps
import Verif.Filter.Response
import Mathlib.Analysis.SpecialFunctions.Trigonometric.Deriv
import Mathlib.Analysis.SpecialFunctions.ExpDeriv
import Mathlib.Algebra.BigOperators.Field
import Mathlib.Topology.Algebra.InfiniteSum.Real
import Mathlib.Topology.Algebra.InfiniteSum.NatInt

/-! # C75: plucked string -/

namespace Fundsp.Osc
open Fundsp.Filter
open _root_.Filter Topology

/-- A new string: `pluck(f, gain_per_second, damping)` with a sample rate and a hash set. -/
noncomputable def plucked (f gps d sr : ℝ) (h : Nat) : PluckSt := ((PluckSt.new f gps d).setSampleRate sr).setHash h

/-- Its excitation: the random sequence less its mean over the loop. -/
noncomputable def excitation (rnd : Nat → Nat → ℝ) (h L i : Nat) : ℝ := rnd h i - (∑ j ∈ Finset.range L, rnd h j) / L

theorem setSampleRate_eq (s : PluckSt) (sr : ℝ) : s.setSampleRate sr = { s with sr := sr, initialized := s.initialized && decide (s.sr = sr) } := by
  unfold PluckSt.setSampleRate
  by_cases h : s.sr = sr
  · subst h; simp
  · simp [h]

theorem plucked_like (f gps d sr : ℝ) (h : Nat) : PluckSt.Like (plucked f gps d sr h) (PluckSt.fir3 (1 - d)) (gps ^ (1 / f)) f sr h := by
  unfold plucked; rw [setSampleRate_eq]; exact ⟨rfl, rfl, rfl, rfl, rfl⟩

theorem plucked_init (f gps d sr : ℝ) (h : Nat) : (plucked f gps d sr h).initialized = false ∧ (plucked f gps d sr h).damping = fun _ => 0 := by
  unfold plucked; rw [setSampleRate_eq]; exact ⟨rfl, rfl⟩

theorem plucked_ready (rnd) {f gps d sr : ℝ} {h : Nat} (hf : 0 < f) (hr : 2.2 * f ≤ sr) : PluckSt.Ready ((plucked f gps d sr h).prep rnd) := by
  have hl := plucked_like f gps d sr h
  refine PluckSt.ready_prep rnd _ (by rw [hl.freq]; exact hf) (by rw [hl.freq, hl.sr]; exact hr) ?_
  rw [(plucked_init f gps d sr h).1]; simp

theorem plucked_prep (rnd) (f gps d sr : ℝ) (h : Nat) :
    ((plucked f gps d sr h).prep rnd).pos = 0 ∧ ((plucked f gps d sr h).prep rnd).damping = (fun _ => 0) ∧
    ((plucked f gps d sr h).prep rnd).weights = PluckSt.fir3 (1 - d) ∧ ((plucked f gps d sr h).prep rnd).gain = gps ^ (1 / f) ∧
    ((plucked f gps d sr h).prep rnd).line.length = ⌊sr / f - 1 - 0.2⌋.toNat ∧
    ((plucked f gps d sr h).prep rnd).tuning = ⟨0, 0, allpoleEta (sr / f - 1 - ⌊sr / f - 1 - 0.2⌋)⟩ ∧
    ∀ i < ⌊sr / f - 1 - 0.2⌋.toNat, ((plucked f gps d sr h).prep rnd).line.getD i 0 = excitation rnd h ⌊sr / f - 1 - 0.2⌋.toNat i := by
  have hl := plucked_like f gps d sr h
  have hi := plucked_init f gps d sr h
  have e : (plucked f gps d sr h).prep rnd = (plucked f gps d sr h).initLine rnd := by simp [PluckSt.prep, hi.1]
  rw [e]
  generalize plucked f gps d sr h = s at *
  obtain ⟨h1, h2, h3, h4, h5⟩ := hl
  subst h3 h4 h5
  refine ⟨rfl, hi.2, h1, h2, by simp [PluckSt.initLine], rfl, fun i hi => ?_⟩
  simp only [PluckSt.initLine, List.getD_eq_getElem?_getD, List.map_map, List.getElem?_map, List.getElem?_range hi, excitation, List.length_map,
    List.length_range, Option.map_some, Option.getD_some, Function.comp]
  congr 2

/-- **C75.** The string is a loop of one period: a delay of `L` samples, a linear phase damping filter (one sample) and a tuning allpass of
`delay` samples, with `L + 1 + delay` equal to the period. The first `L` samples through the loop are the excitation, then each is what came
out `L` samples earlier, scaled by the loss, plus the input. -/
theorem C75_string (rnd : Nat → Nat → ℝ) {f gps d sr : ℝ} (h : Nat) (hf : 0 < f) (hr : 2.2 * f ≤ sr) :
    ∃ (L : Nat) (delay : ℝ), 1 ≤ L ∧ 0.2 ≤ delay ∧ delay < 1.2 ∧ L + 1 + delay = sr / f ∧
      ∀ (w : Nat → Frame ℝ 1), ∃ (y u v : Nat → ℝ), (∀ n, (pluck rnd).stream (plucked f gps d sr h) w n 0 = y n) ∧
        (∀ n, u n = gps ^ (1 / f) * (if n < L then excitation rnd h L n else y (n - L)) + w n 0) ∧
        (∀ n, v n = (firNode (0 : ℝ) (· + ·) (· * ·) ![d / 4, 1 - d / 2, d / 4]).stream (fun _ => 0) (fun k _ => u k) n 0) ∧
        ∀ n, y n = (allpoleNode 0).stream (⟨0, 0, allpoleEta delay⟩ : PoleZero ℝ) (fun k _ => v k) n 0 := by
  have hp := PluckSt.loop_pos' hf hr
  have hrd := plucked_ready rnd (gps := gps) (d := d) (h := h) hf hr
  have hfl := Int.floor_le (sr / f - 1 - 0.2)
  have hlt := Int.lt_floor_add_one (sr / f - 1 - 0.2)
  obtain ⟨p1, p2, p3, p4, p5, p6, p7⟩ := plucked_prep rnd f gps d sr h
  refine ⟨⌊sr / f - 1 - 0.2⌋.toNat, sr / f - 1 - ⌊sr / f - 1 - 0.2⌋, by omega, by linarith, by linarith, ?_, fun w => ?_⟩
  · have : ((⌊sr / f - 1 - 0.2⌋.toNat : ℕ) : ℝ) = ((⌊sr / f - 1 - 0.2⌋ : ℤ) : ℝ) := by
      have e : ((⌊sr / f - 1 - 0.2⌋.toNat : ℕ) : ℤ) = ⌊sr / f - 1 - 0.2⌋ := Int.toNat_of_nonneg (by omega)
      exact_mod_cast congrArg (Int.cast (R := ℝ)) e
    rw [this]; ring
  · generalize hs : (plucked f gps d sr h).prep rnd = s at *
    refine ⟨s.outs (fun k => w k 0), s.drive (fun k => w k 0), s.firOut (s.drive (fun k => w k 0)), fun n => ?_, fun n => ?_, fun n => ?_, fun n => ?_⟩
    · rw [PluckSt.stream_run rnd _ (by rw [hs]; exact hrd), hs]
    · unfold PluckSt.drive PluckSt.back
      rw [p4, p5]
      split
      · rw [p7 _ ‹_›]
      · rfl
    · unfold PluckSt.firOut; rw [p2, p3, PluckSt.fir3_eq]
    · rw [PluckSt.outs_eq hrd p1, p6]

/-- **C75.** The excitation has no direct component. -/
theorem C75_zero_mean (rnd : Nat → Nat → ℝ) (h L : Nat) (hL : 1 ≤ L) : ∑ i ∈ Finset.range L, excitation rnd h L i = 0 := by
  have : (L : ℝ) ≠ 0 := by positivity
  simp only [excitation, Finset.sum_sub_distrib, Finset.sum_const, Finset.card_range, nsmul_eq_mul]
  field_simp
  ring

/-- **C75.** The loss is the requested one: going through the loop `f` times, that is for one second, scales by `gain_per_second`. -/
theorem C75_gain {f gps : ℝ} (hf : 0 < f) (hg : 0 ≤ gps) :
    (gps ^ (1 / f)) ^ f = gps ∧ 0 ≤ gps ^ (1 / f) ∧ (gps ≤ 1 → gps ^ (1 / f) ≤ 1) ∧ (gps < 1 → gps ^ (1 / f) < 1) := by
  refine ⟨?_, Real.rpow_nonneg hg _, fun h => Real.rpow_le_one hg h (by positivity), fun h => Real.rpow_lt_one hg h (by positivity)⟩
  rw [← Real.rpow_mul hg, one_div, inv_mul_cancel₀ hf.ne', Real.rpow_one]

/-- The response of one trip around the loop. -/
noncomputable def loopResponse (g d : ℝ) (L : Nat) (delay θ : ℝ) : ℂ :=
  g * delayResponse L θ * firResponse ![d / 4, 1 - d / 2, d / 4] θ * allpoleResponse (allpoleEta delay) θ

theorem fir3_response (d θ : ℝ) : firResponse ![d / 4, 1 - d / 2, d / 4] θ = d / 4 + (1 - d / 2) * polar (-θ) + d / 4 * polar (-θ) ^ 2 := by
  simp only [firResponse, List.range_succ, List.range_zero, List.nil_append, List.cons_append, List.foldl_cons, List.foldl_nil]
  simp only [show 3 - 1 - 0 < 3 from by omega, show 3 - 1 - 1 < 3 from by omega, show 3 - 1 - 2 < 3 from by omega, dite_true]
  show 0 + ((d / 4 : ℝ) : ℂ) * 1 + ((1 - d / 2 : ℝ) : ℂ) * (1 * polar (-θ)) + ((d / 4 : ℝ) : ℂ) * (1 * polar (-θ) * polar (-θ)) = _
  push_cast; ring

theorem polar_deriv (c : ℝ) : HasDerivAt (fun θ : ℝ => polar (-(θ * c))) (-(c * Complex.I)) 0 := by
  have h1 : HasDerivAt (fun θ : ℝ => ((-(θ * c) : ℝ) : ℂ) * Complex.I) (((-c : ℝ) : ℂ) * Complex.I) 0 := by
    have : HasDerivAt (fun θ : ℝ => -(θ * c)) (-c) 0 := by
      have h := ((hasDerivAt_id (0:ℝ)).mul_const c).neg
      rw [one_mul] at h
      exact h
    exact this.ofReal_comp.mul_const Complex.I
  have h2 := h1.cexp
  simpa [polar] using h2

/-- **C75.** For low frequencies a trip around the loop takes exactly one period: the loop response is the gain at zero frequency, and its
phase slope there is minus the period. -/
theorem C75_period (g d : ℝ) (L : Nat) (delay p : ℝ) (hd : 0 < delay) (hp : L + 1 + delay = p) :
    loopResponse g d L delay 0 = g ∧ HasDerivAt (loopResponse g d L delay) (-(g * p * Complex.I)) 0 := by
  have hz : polar (-0) = 1 := by simp [polar]
  have he : (1 : ℂ) + (allpoleEta delay : ℝ) ≠ 0 := by
    have : (0 : ℝ) < 1 + allpoleEta delay := by have := abs_lt.1 (C40_allpole_delay delay hd); linarith
    exact_mod_cast this.ne'
  have p1 : HasDerivAt (fun θ : ℝ => polar (-θ)) (-Complex.I) 0 := by simpa using polar_deriv 1
  have pL : HasDerivAt (fun θ : ℝ => delayResponse L θ) (-(L * Complex.I)) 0 := by simpa [delayResponse] using polar_deriv L
  have pf : HasDerivAt (fun θ : ℝ => firResponse ![d / 4, 1 - d / 2, d / 4] θ) (-Complex.I) 0 := by
    have h2 := ((p1.const_mul (1 - d / 2 : ℂ)).const_add (d / 4 : ℂ)).add ((p1.pow 2).const_mul (d / 4 : ℂ))
    have e : (fun θ : ℝ => firResponse ![d / 4, 1 - d / 2, d / 4] θ)
        = (fun θ : ℝ => (d / 4 : ℂ) + (1 - d / 2) * polar (-θ)) + fun θ : ℝ => (d / 4 : ℂ) * (polar (-θ)) ^ 2 := by
      funext θ; rw [fir3_response]; rfl
    rw [e]
    refine h2.congr_deriv ?_
    rw [hz]; push_cast; ring
  have pa : HasDerivAt (fun θ : ℝ => allpoleResponse (allpoleEta delay) θ) (-(delay * Complex.I)) 0 := by
    have h2 := (p1.const_add ((allpoleEta delay : ℝ) : ℂ)).div ((p1.const_mul ((allpoleEta delay : ℝ) : ℂ)).const_add 1) (by rw [hz, mul_one]; exact he)
    have e : (fun θ : ℝ => allpoleResponse (allpoleEta delay) θ)
        = (fun θ : ℝ => ((allpoleEta delay : ℝ) : ℂ) + polar (-θ)) / fun θ : ℝ => 1 + ((allpoleEta delay : ℝ) : ℂ) * polar (-θ) := by
      funext θ; rfl
    rw [e]
    refine h2.congr_deriv ?_
    rw [hz, mul_one]
    have hdl : ((allpoleEta delay : ℝ) : ℂ) * (1 + delay) = 1 - delay := by
      have : allpoleEta delay * (1 + delay) = 1 - delay := by unfold allpoleEta; field_simp
      exact_mod_cast congrArg (fun x : ℝ => (x : ℂ)) this
    rw [div_eq_iff (pow_ne_zero 2 he)]
    linear_combination (-Complex.I * (1 + ((allpoleEta delay : ℝ) : ℂ)) * (-1)) * hdl
  have f0 : firResponse ![d / 4, 1 - d / 2, d / 4] 0 = 1 := by rw [fir3_response, hz]; ring
  have a0 : allpoleResponse (allpoleEta delay) 0 = 1 := by
    unfold allpoleResponse; rw [hz, mul_one, add_comm]; exact div_self he
  have d0 : delayResponse L 0 = 1 := by simp [delayResponse, polar]
  refine ⟨by unfold loopResponse; rw [f0, a0, d0]; ring, ?_⟩
  have h3 := ((pL.const_mul (g : ℂ)).mul pf).mul pa
  have e : loopResponse g d L delay = ((fun θ => (g : ℂ) * delayResponse L θ) * fun θ => firResponse ![d / 4, 1 - d / 2, d / 4] θ)
      * fun θ => allpoleResponse (allpoleEta delay) θ := by funext θ; rfl
  rw [e]
  refine h3.congr_deriv ?_
  simp only [Pi.mul_apply]
  rw [f0, a0, d0, ← hp]
  push_cast; ring

/-! ### Energy -/

/-- Energy of the samples on the string and in the memory of its filters, in a state about to be ticked. -/
noncomputable def stringEnergy (rnd : Nat → Nat → ℝ) (s : PluckSt) : ℝ := (s.prep rnd).energy

theorem reached_pluck (rnd) {f gps d sr : ℝ} {h : Nat} (hf : 0 < f) (hr : 2.2 * f ≤ sr) (s : (pluck rnd).σ)
    (hs : Reached (pluck rnd) (plucked f gps d sr h) s) :
    PluckSt.Like s (PluckSt.fir3 (1 - d)) (gps ^ (1 / f)) f sr h ∧ PluckSt.Ready (PluckSt.prep rnd s) ∧ (PluckSt.initialized s = true → PluckSt.Ready s) := by
  have aux : ∀ s : PluckSt, PluckSt.Like s (PluckSt.fir3 (1 - d)) (gps ^ (1 / f)) f sr h → (PluckSt.initialized s = true → PluckSt.Ready s) →
      PluckSt.Ready (PluckSt.prep rnd s) := fun s hl hi =>
    PluckSt.ready_prep rnd s (by rw [hl.freq]; exact hf) (by rw [hl.freq, hl.sr]; exact hr) hi
  induction hs with
  | init => exact ⟨plucked_like f gps d sr h, plucked_ready rnd hf hr, by rw [(plucked_init f gps d sr h).1]; simp⟩
  | @tick s x _ ih =>
    have hl : PluckSt.Like (PluckSt.prep rnd s) (PluckSt.fir3 (1 - d)) (gps ^ (1 / f)) f sr h := ih.1.prep rnd
    have h1 : PluckSt.Like (PluckSt.play (PluckSt.prep rnd s) (x 0)).1 (PluckSt.fir3 (1 - d)) (gps ^ (1 / f)) f sr h := ⟨hl.1, hl.2, hl.3, hl.4, hl.5⟩
    have h2 := ih.2.1.play (x 0)
    exact ⟨h1, aux _ h1 (fun _ => h2), fun _ => h2⟩
  | @reset s _ ih =>
    have h1 : PluckSt.Like (PluckSt.reset s) (PluckSt.fir3 (1 - d)) (gps ^ (1 / f)) f sr h := ⟨ih.1.1, ih.1.2, ih.1.3, ih.1.4, ih.1.5⟩
    have h2 : PluckSt.initialized (PluckSt.reset s) = true → PluckSt.Ready (PluckSt.reset s) := fun h => by simp [PluckSt.reset] at h
    exact ⟨h1, aux _ h1 h2, h2⟩

/-- **C75.** At every moment in the life of a string with loss at most one, a tick without input does not increase the energy of the string,
and the sample it outputs is bounded by that energy. -/
theorem C75_energy (rnd : Nat → Nat → ℝ) {f gps d sr : ℝ} {h : Nat} (hf : 0 < f) (hr : 2.2 * f ≤ sr) (h0 : 0 ≤ d) (h1 : d ≤ 1) (hg : 0 ≤ gps) (hg1 : gps ≤ 1)
    (s : (pluck rnd).σ) (hs : Reached (pluck rnd) (plucked f gps d sr h) s) (x : Frame ℝ 1) (hx : x 0 = 0) :
    stringEnergy rnd ((pluck rnd).tick s x).1 ≤ stringEnergy rnd s ∧ ((pluck rnd).tick s x).2 0 ^ 2 ≤ stringEnergy rnd s := by
  obtain ⟨hl, hrd, _⟩ := reached_pluck rnd hf hr s hs
  have hl' : PluckSt.Like (PluckSt.prep rnd s) (PluckSt.fir3 (1 - d)) (gps ^ (1 / f)) f sr h := hl.prep rnd
  have e1 := PluckSt.energy_play hrd h0 h1 hl'.weights 0
  have e2 := PluckSt.out_le_energy hrd h0 h1 hl'.weights 0
  have e3 : stringEnergy rnd ((pluck rnd).tick s x).1 = (PluckSt.play (PluckSt.prep rnd s) 0).1.energy := by
    show (PluckSt.prep rnd (PluckSt.play (PluckSt.prep rnd s) (x 0)).1).energy = _
    rw [hx, (hrd.play 0).prep rnd]
  have e4 : ((pluck rnd).tick s x).2 0 = (PluckSt.play (PluckSt.prep rnd s) 0).2 := by
    show (PluckSt.play (PluckSt.prep rnd s) (x 0)).2 = _
    rw [hx]
  have e5 : stringEnergy rnd s = (PluckSt.prep rnd s).energy := rfl
  obtain ⟨_, g0, g1, _⟩ := C75_gain hf hg
  rw [← hl'.gain] at g0 g1
  have g2 := g1 hg1
  have e6 : ((PluckSt.prep rnd s).line.getD (PluckSt.prep rnd s).pos 0 * (PluckSt.prep rnd s).gain + 0) ^ 2
      ≤ (PluckSt.prep rnd s).line.getD (PluckSt.prep rnd s).pos 0 ^ 2 := by
    rw [add_zero, mul_pow]
    have : (PluckSt.prep rnd s).gain ^ 2 ≤ 1 := by nlinarith
    nlinarith [sq_nonneg ((PluckSt.prep rnd s).line.getD (PluckSt.prep rnd s).pos 0)]
  rw [e3, e4, e5]
  constructor <;> linarith

/-- Output energy of the two filters driven by `u` from rest. -/
theorem filters_passive {d : ℝ} (h0 : 0 ≤ d) (h1 : d ≤ 1) {delay : ℝ} (hd : 0 < delay) (u v y : Nat → ℝ)
    (hv : ∀ n, v n = (firNode (0 : ℝ) (· + ·) (· * ·) ![d / 4, 1 - d / 2, d / 4]).stream (fun _ => 0) (fun k _ => u k) n 0)
    (hy : ∀ n, y n = (allpoleNode 0).stream (⟨0, 0, allpoleEta delay⟩ : PoleZero ℝ) (fun k _ => v k) n 0) (n : Nat) :
    ∑ k ∈ Finset.range n, y k ^ 2 ≤ ∑ k ∈ Finset.range n, u k ^ 2 := by
  have a1 : ∑ k ∈ Finset.range n, y k ^ 2 ≤ ∑ k ∈ Finset.range n, v k ^ 2 := by
    have hL := C40_allpole _ (C40_allpole_delay delay hd)
    have := hL.passive (s := (⟨0, 0, allpoleEta delay⟩ : PoleZero ℝ)) rfl (fun k _ => v k) n
    unfold sumSq at this
    refine le_trans (le_of_eq (Finset.sum_congr rfl fun k _ => ?_)) this
    rw [hy]; rfl
  refine a1.trans ?_
  have key : ∀ n, ∑ k ∈ Finset.range n, v k ^ 2
      + PluckSt.firV (d / 4) ((firNode (0 : ℝ) (· + ·) (· * ·) ![d / 4, 1 - d / 2, d / 4]).ticks.st (fun _ => 0) (fun k _ => u k) n)
      ≤ ∑ k ∈ Finset.range n, u k ^ 2 := by
    intro n
    induction n with
    | zero =>
      rw [Finset.sum_range_zero, Finset.sum_range_zero]
      show 0 + PluckSt.firV (d / 4) (fun _ => 0) ≤ 0
      simp [PluckSt.firV]
    | succ n ih =>
      rw [Finset.sum_range_succ, Finset.sum_range_succ]
      have hp := PluckSt.fir_passive h0 h1 ((firNode (0 : ℝ) (· + ·) (· * ·) ![d / 4, 1 - d / 2, d / 4]).ticks.st (fun _ => 0) (fun k _ => u k) n) (u n)
      rw [PluckSt.fir3_eq] at hp
      have e1 : v n = (firTick 0 (· + ·) (· * ·) ![d / 4, 1 - d / 2, d / 4]
        ((firNode (0 : ℝ) (· + ·) (· * ·) ![d / 4, 1 - d / 2, d / 4]).ticks.st (fun _ => 0) (fun k _ => u k) n) (fun _ => u n)).2 0 := hv n
      have e2 : (firNode (0 : ℝ) (· + ·) (· * ·) ![d / 4, 1 - d / 2, d / 4]).ticks.st (fun _ => 0) (fun k _ => u k) (n + 1)
        = (firTick 0 (· + ·) (· * ·) ![d / 4, 1 - d / 2, d / 4]
        ((firNode (0 : ℝ) (· + ·) (· * ·) ![d / 4, 1 - d / 2, d / 4]).ticks.st (fun _ => 0) (fun k _ => u k) n) (fun _ => u n)).1 := rfl
      rw [e2, e1]
      linarith
  have := key n
  have := PluckSt.firV_nonneg h0 h1 ((firNode (0 : ℝ) (· + ·) (· * ·) ![d / 4, 1 - d / 2, d / 4]).ticks.st (fun _ => 0) (fun k _ => u k) n)
  linarith

theorem back_sum (e y : Nat → ℝ) (L : Nat) (n : Nat) :
    ∑ k ∈ Finset.range n, (if k < L then e k else y (k - L)) ^ 2 ≤ ∑ k ∈ Finset.range L, e k ^ 2 + ∑ k ∈ Finset.range (n - L), y k ^ 2 := by
  by_cases hn : n ≤ L
  · have e1 : ∑ k ∈ Finset.range n, (if k < L then e k else y (k - L)) ^ 2 = ∑ k ∈ Finset.range n, e k ^ 2 := by
      refine Finset.sum_congr rfl fun k hk => ?_
      rw [if_pos (by have := Finset.mem_range.1 hk; omega)]
    rw [e1]
    have e2 : ∑ k ∈ Finset.range n, e k ^ 2 ≤ ∑ k ∈ Finset.range L, e k ^ 2 :=
      Finset.sum_le_sum_of_subset_of_nonneg (Finset.range_subset_range.2 hn) (fun _ _ _ => sq_nonneg _)
    have e3 : 0 ≤ ∑ k ∈ Finset.range (n - L), y k ^ 2 := Finset.sum_nonneg fun _ _ => sq_nonneg _
    linarith
  · obtain ⟨m, rfl⟩ : ∃ m, n = L + m := ⟨n - L, by omega⟩
    rw [Finset.sum_range_add]
    refine le_of_eq ?_
    congr 1
    · refine Finset.sum_congr rfl fun k hk => ?_
      rw [if_pos (Finset.mem_range.1 hk)]
    · have : L + m - L = m := by omega
      rw [this]
      refine Finset.sum_congr rfl fun k _ => ?_
      rw [if_neg (by omega)]
      congr 2; omega

/-- **C75.** Played without input, no period of the string ever has more energy than the excitation. -/
theorem C75_period_energy (rnd : Nat → Nat → ℝ) {f gps d sr : ℝ} {h : Nat} (hf : 0 < f) (hr : 2.2 * f ≤ sr) (h0 : 0 ≤ d) (h1 : d ≤ 1) (hg : 0 ≤ gps) (hg1 : gps ≤ 1) :
    ∃ L : Nat, 1 ≤ L ∧ |L - sr / f| ≤ 2.2 ∧ ∀ n : Nat, ∑ k ∈ Finset.range L, (pluck rnd).stream (plucked f gps d sr h) (fun _ _ => 0) (n + k) 0 ^ 2
      ≤ ∑ k ∈ Finset.range L, excitation rnd h L k ^ 2 := by
  obtain ⟨L, delay, hL, hd0, hd1, hp, H⟩ := C75_string rnd (gps := gps) (d := d) h hf hr
  refine ⟨L, hL, by rw [abs_le]; constructor <;> norm_num at * <;> linarith, fun n => ?_⟩
  obtain ⟨y, u, v, hy, hu, hv, ha⟩ := H (fun _ _ => 0)
  obtain ⟨_, g0, g1, _⟩ := C75_gain hf hg
  have g2 := g1 hg1
  have e1 := filters_passive h0 h1 (by norm_num at *; linarith) u v y hv ha (n + L)
  have e2 : ∑ k ∈ Finset.range (n + L), u k ^ 2 ≤ ∑ k ∈ Finset.range (n + L), (if k < L then excitation rnd h L k else y (k - L)) ^ 2 := by
    refine Finset.sum_le_sum fun k _ => ?_
    rw [hu, add_zero, mul_pow]
    have : (gps ^ (1 / f)) ^ 2 ≤ 1 := by nlinarith
    nlinarith [sq_nonneg (if k < L then excitation rnd h L k else y (k - L))]
  have e3 := back_sum (excitation rnd h L) y L (n + L)
  rw [Nat.add_sub_cancel] at e3
  rw [Finset.sum_range_add] at e1
  have e4 : ∑ k ∈ Finset.range L, (pluck rnd).stream (plucked f gps d sr h) (fun _ _ => 0) (n + k) 0 ^ 2 = ∑ k ∈ Finset.range L, y (n + k) ^ 2 :=
    Finset.sum_congr rfl fun k _ => by rw [hy]
  rw [e4]; linarith

theorem mix_square {a : ℝ} (h0 : 0 ≤ a) (h1 : a < 1) (v i : ℝ) : (a * v + i) ^ 2 ≤ a * v ^ 2 + i ^ 2 / (1 - a) := by
  have h2 : 0 < 1 - a := by linarith
  have key : a * v ^ 2 + i ^ 2 / (1 - a) - (a * v + i) ^ 2 = a * ((1 - a) * v - i) ^ 2 / (1 - a) := by field_simp; ring
  have : 0 ≤ a * ((1 - a) * v - i) ^ 2 / (1 - a) := div_nonneg (mul_nonneg h0 (sq_nonneg _)) h2.le
  linarith

/-- **C75.** With loss below one the string is stable: the energy of the output is at most a constant times that of excitation and input,
at every moment and for every input. -/
theorem C75_stable (rnd : Nat → Nat → ℝ) {f gps d sr : ℝ} {h : Nat} (hf : 0 < f) (hr : 2.2 * f ≤ sr) (h0 : 0 ≤ d) (h1 : d ≤ 1) (hg : 0 ≤ gps) (hg1 : gps < 1) :
    ∃ L : Nat, 1 ≤ L ∧ |L - sr / f| ≤ 2.2 ∧ ∀ (w : Nat → Frame ℝ 1) (n : Nat),
      (1 - gps ^ (1 / f)) * ∑ k ∈ Finset.range n, (pluck rnd).stream (plucked f gps d sr h) w k 0 ^ 2
      ≤ gps ^ (1 / f) * ∑ k ∈ Finset.range L, excitation rnd h L k ^ 2 + (∑ k ∈ Finset.range n, w k 0 ^ 2) / (1 - gps ^ (1 / f)) := by
  obtain ⟨L, delay, hL, hd0, hd1, hp, H⟩ := C75_string rnd (gps := gps) (d := d) h hf hr
  refine ⟨L, hL, by rw [abs_le]; constructor <;> norm_num at * <;> linarith, fun w n => ?_⟩
  obtain ⟨y, u, v, hy, hu, hv, ha⟩ := H w
  obtain ⟨_, g0, _, g1⟩ := C75_gain hf hg
  have g2 := g1 hg1
  have e1 := filters_passive h0 h1 (by norm_num at *; linarith) u v y hv ha n
  have e2 : ∑ k ∈ Finset.range n, u k ^ 2 ≤ gps ^ (1 / f) * ∑ k ∈ Finset.range n, (if k < L then excitation rnd h L k else y (k - L)) ^ 2
      + (∑ k ∈ Finset.range n, w k 0 ^ 2) / (1 - gps ^ (1 / f)) := by
    rw [Finset.mul_sum, Finset.sum_div, ← Finset.sum_add_distrib]
    refine Finset.sum_le_sum fun k _ => ?_
    rw [hu]
    exact mix_square g0 g2 _ _
  have e3 := back_sum (excitation rnd h L) y L n
  have e4 : ∑ k ∈ Finset.range (n - L), y k ^ 2 ≤ ∑ k ∈ Finset.range n, y k ^ 2 :=
    Finset.sum_le_sum_of_subset_of_nonneg (Finset.range_subset_range.2 (by omega)) (fun _ _ _ => sq_nonneg _)
  have e5 : ∑ k ∈ Finset.range n, (pluck rnd).stream (plucked f gps d sr h) w k 0 ^ 2 = ∑ k ∈ Finset.range n, y k ^ 2 :=
    Finset.sum_congr rfl fun k _ => by rw [hy]
  rw [e5]
  have e6 := mul_le_mul_of_nonneg_left (e3.trans (add_le_add_right e4 _)) g0
  nlinarith

/-- **C75.** The string dies out: if the input has finite energy, for example stops, the output tends to zero. -/
theorem C75_dies_out (rnd : Nat → Nat → ℝ) {f gps d sr : ℝ} {h : Nat} (hf : 0 < f) (hr : 2.2 * f ≤ sr) (h0 : 0 ≤ d) (h1 : d ≤ 1) (hg : 0 ≤ gps) (hg1 : gps < 1)
    (w : Nat → Frame ℝ 1) (B : ℝ) (hB : ∀ n, ∑ k ∈ Finset.range n, w k 0 ^ 2 ≤ B) :
    Tendsto (fun n => (pluck rnd).stream (plucked f gps d sr h) w n 0) atTop (𝓝 0) := by
  obtain ⟨L, _, _, H⟩ := C75_stable rnd (h := h) hf hr h0 h1 hg hg1
  obtain ⟨_, g0, _, g1⟩ := C75_gain hf hg
  have g2 := g1 hg1
  have g3 : 0 < 1 - gps ^ (1 / f) := by linarith
  have hs : Summable (fun k => (pluck rnd).stream (plucked f gps d sr h) w k 0 ^ 2) := by
    refine summable_of_sum_range_le (c := (gps ^ (1 / f) * ∑ k ∈ Finset.range L, excitation rnd h L k ^ 2 + B / (1 - gps ^ (1 / f))) / (1 - gps ^ (1 / f)))
      (fun _ => sq_nonneg _) fun n => ?_
    rw [le_div_iff₀ g3, mul_comm]
    refine (H w n).trans (add_le_add_right ?_ _)
    exact div_le_div_of_nonneg_right (hB n) g3.le
  have h2 := hs.tendsto_atTop_zero
  have h3 : Tendsto (fun n => |(pluck rnd).stream (plucked f gps d sr h) w n 0|) atTop (𝓝 0) := by
    have := (Real.continuous_sqrt.tendsto 0).comp h2
    rw [Real.sqrt_zero] at this
    refine this.congr fun n => ?_
    show Real.sqrt ((pluck rnd).stream (plucked f gps d sr h) w n 0 ^ 2) = _
    rw [Real.sqrt_sq_eq_abs]
  exact (tendsto_zero_iff_abs_tendsto_zero _).2 h3

/-! ### Panics, reset, blocks -/

/-- **C75.** A string can be played exactly when its period is at least 2.2 samples; above that frequency the first sample panics. -/
theorem C75_panic (rnd : Nat → Nat → ℝ) {f gps d sr : ℝ} (h : Nat) (hf : 0 < f) (x : Frame ℝ 1) :
    ((plucked f gps d sr h).tick? rnd x).isSome ↔ 2.2 * f ≤ sr := by
  obtain ⟨p1, _, _, _, p5, _, _⟩ := plucked_prep rnd f gps d sr h
  unfold PluckSt.tick?
  rw [p1, p5]
  have : 0 < ⌊sr / f - 1 - 0.2⌋.toNat ↔ 2.2 * f ≤ sr := by
    rw [← le_div_iff₀ hf, Int.lt_toNat]
    have e : ((0 : ℕ) : ℤ) < ⌊sr / f - 1 - 0.2⌋ ↔ 1 ≤ ⌊sr / f - 1 - 0.2⌋ := by omega
    rw [e, Int.le_floor]
    push_cast
    constructor <;> intro h <;> norm_num at * <;> linarith
  rw [← this]
  split <;> simp_all

/-- **C75.** and no later tick panics. -/
theorem C75_no_panic (rnd : Nat → Nat → ℝ) {f gps d sr : ℝ} {h : Nat} (hf : 0 < f) (hr : 2.2 * f ≤ sr)
    (s : (pluck rnd).σ) (hs : Reached (pluck rnd) (plucked f gps d sr h) s) (x : Frame ℝ 1) :
    PluckSt.tick? rnd s x = some ((pluck rnd).tick s x) := by
  obtain ⟨_, hrd, _⟩ := reached_pluck rnd hf hr s hs
  unfold PluckSt.tick?
  rw [if_pos hrd.2.1]; rfl

theorem fresh_stream (rnd : Nat → Nat → ℝ) {f gps d sr : ℝ} {h : Nat} (hf : 0 < f) (hr : 2.2 * f ≤ sr) (s : PluckSt)
    (hl : PluckSt.Like s (PluckSt.fir3 (1 - d)) (gps ^ (1 / f)) f sr h) (w : Nat → Frame ℝ 1) :
    (pluck rnd).stream (PluckSt.reset s) w = (pluck rnd).stream (plucked f gps d sr h) w := by
  have hs' : PluckSt.prep rnd (PluckSt.reset s) = PluckSt.prep rnd (plucked f gps d sr h) := by
    have hl2 := plucked_like f gps d sr h
    have hi := plucked_init f gps d sr h
    have e1 : PluckSt.prep rnd (PluckSt.reset s) = (PluckSt.reset s).initLine rnd := by simp [PluckSt.prep, PluckSt.reset]
    have e2 : PluckSt.prep rnd (plucked f gps d sr h) = (plucked f gps d sr h).initLine rnd := by simp [PluckSt.prep, hi.1]
    rw [e1, e2]
    unfold PluckSt.initLine PluckSt.reset
    simp only [PluckSt.mk.injEq]
    rw [hl.1, hl.2, hl.3, hl.4, hl.5, hl2.1, hl2.2, hl2.3, hl2.4, hl2.5, hi.2]
    simp
  have hrd := plucked_ready rnd (gps := gps) (d := d) (h := h) hf hr
  funext n c
  have hc : c = 0 := Subsingleton.elim _ _
  subst hc
  have a := PluckSt.stream_run rnd (PluckSt.reset s) (by rw [hs']; exact hrd) w n
  have b := PluckSt.stream_run rnd (plucked f gps d sr h) hrd w n
  rw [hs'] at a
  exact a.trans b.symm

/-- **C75.** Reset plucks the same string again. -/
theorem C75_reset (rnd : Nat → Nat → ℝ) {f gps d sr : ℝ} {h : Nat} (hf : 0 < f) (hr : 2.2 * f ≤ sr) : ResetFresh (pluck rnd) (plucked f gps d sr h) :=
  TickFresh.ofTick fun s hs w => fresh_stream rnd hf hr s (reached_pluck rnd hf hr s hs).1 w

/-- **C75.** A new hash alone does not give the new string: the memory of the damping filter is kept, so what was played before is heard.
Setting the hash and resetting does. -/
theorem C75_violation_hash : ∃ s : PluckSt, Reached (pluck fun _ _ => 0) (plucked 12600 1 0 44100 0) s ∧
    (pluck fun _ _ => 0).stream (s.setHash 1) (fun _ _ => 0) 0 0 ≠ (pluck fun _ _ => 0).stream (plucked 12600 1 0 44100 1) (fun _ _ => 0) 0 0 := by
  have hfl : ⌊(44100 : ℝ) / 12600 - 1 - 0.2⌋ = 2 := by rw [Int.floor_eq_iff]; norm_num
  refine ⟨((pluck fun _ _ => 0).tick (plucked 12600 1 0 44100 0) (fun _ => 1)).1, .tick _ .init, ?_⟩
  have fresh : ∀ h, (plucked 12600 1 0 44100 h).prep (fun _ _ => 0) = ⟨PluckSt.fir3 1, fun _ => 0, ⟨0, 0, 1 / 3⟩, [0, 0], 1, 0, h, 12600, 44100, true⟩ := by
    intro h
    have hl := plucked_like 12600 1 0 44100 h
    have hi := plucked_init 12600 1 0 44100 h
    simp only [PluckSt.prep, hi.1, Bool.false_eq_true, if_false, PluckSt.initLine, PluckSt.mk.injEq]
    rw [hl.1, hl.2, hl.3, hl.4, hl.5, hi.2, hfl]
    refine ⟨by norm_num, rfl, ?_, ?_, by simp, trivial, rfl, rfl, rfl, trivial⟩
    · congr 1; unfold allpoleEta; norm_num
    · simp [List.range_succ]
  have e1 : (pluck fun _ _ => 0).stream (plucked 12600 1 0 44100 1) (fun _ _ => 0) 0 0 = 0 := by
    show (((plucked 12600 1 0 44100 1).prep (fun _ _ => 0)).play 0).2 = 0
    rw [fresh]
    simp [PluckSt.play, firTick, allpoleTick, List.finRange_succ]
  have e2 : ((pluck fun _ _ => 0).tick (plucked 12600 1 0 44100 0) (fun _ => 1)).1 = (((plucked 12600 1 0 44100 0).prep (fun _ _ => 0)).play 1).1 := rfl
  rw [e1, e2, fresh]
  show (PluckSt.play (PluckSt.initLine (fun _ _ => 0) (PluckSt.setHash (PluckSt.play _ 1).1 1)) 0).2 ≠ 0
  simp [PluckSt.play, PluckSt.initLine, PluckSt.setHash, firTick, allpoleTick, List.finRange_succ, PluckSt.fir3, allpoleEta, hfl]
  norm_num [List.range_succ]

/-- **C75.** Setting the hash and resetting gives the string of that hash. -/
theorem C75_hash (rnd : Nat → Nat → ℝ) {f gps d sr : ℝ} {h : Nat} (hf : 0 < f) (hr : 2.2 * f ≤ sr) (h' : Nat)
    (s : (pluck rnd).σ) (hs : Reached (pluck rnd) (plucked f gps d sr h) s) (w : Nat → Frame ℝ 1) :
    (pluck rnd).stream (PluckSt.reset (PluckSt.setHash s h')) w = (pluck rnd).stream (plucked f gps d sr h') w :=
  fresh_stream rnd hf hr _ (by
    obtain ⟨hl, _, _⟩ := reached_pluck rnd hf hr s hs
    exact ⟨hl.1, hl.2, hl.3, hl.4, rfl⟩) w

/-- **C75.** A new sample rate, at any time, gives a string tuned at that rate: it is plucked again, the loop has the period at the new rate, and only the memory `m` of the damping filter is from before.
The rate it already has changes nothing. -/
theorem C75_rate (rnd : Nat → Nat → ℝ) {f gps d sr : ℝ} {h : Nat} (hf : 0 < f) (hr : 2.2 * f ≤ sr) (s : (pluck rnd).σ) (hs : Reached (pluck rnd) (plucked f gps d sr h) s) (sr' : ℝ) (hr' : 2.2 * f ≤ sr') :
    (sr' = sr → PluckSt.setSampleRate s sr' = s) ∧ (sr' ≠ sr →
    ∃ (L : Nat) (delay : ℝ) (m : Frame ℝ 3), 1 ≤ L ∧ 0.2 ≤ delay ∧ delay < 1.2 ∧ L + 1 + delay = sr' / f ∧
      ∀ (w : Nat → Frame ℝ 1), ∃ (y u v : Nat → ℝ), (∀ n, (pluck rnd).stream (PluckSt.setSampleRate s sr') w n 0 = y n) ∧
        (∀ n, u n = gps ^ (1 / f) * (if n < L then excitation rnd h L n else y (n - L)) + w n 0) ∧
        (∀ n, v n = (firNode (0 : ℝ) (· + ·) (· * ·) ![d / 4, 1 - d / 2, d / 4]).stream m (fun k _ => u k) n 0) ∧
        ∀ n, y n = (allpoleNode 0).stream (⟨0, 0, allpoleEta delay⟩ : PoleZero ℝ) (fun k _ => v k) n 0) := by
  obtain ⟨hl, _, _⟩ := reached_pluck rnd hf hr s hs
  change PluckSt at s
  obtain ⟨h1, h2, h3, h4, h5⟩ := hl
  refine ⟨fun e => ?_, fun e => ?_⟩
  · unfold PluckSt.setSampleRate; rw [if_neg]; rw [h4, e]; simp
  have e0 : PluckSt.setSampleRate s sr' = { s with sr := sr', initialized := false } := if_pos (by rw [h4]; exact fun x => e x.symm)
  have hp := PluckSt.loop_pos' hf hr'
  have hfl := Int.floor_le (sr' / f - 1 - 0.2)
  have hlt := Int.lt_floor_add_one (sr' / f - 1 - 0.2)
  refine ⟨⌊sr' / f - 1 - 0.2⌋.toNat, sr' / f - 1 - ⌊sr' / f - 1 - 0.2⌋, s.damping, by omega, by linarith, by linarith, ?_, fun w => ?_⟩
  · have : ((⌊sr' / f - 1 - 0.2⌋.toNat : ℕ) : ℝ) = ((⌊sr' / f - 1 - 0.2⌋ : ℤ) : ℝ) := by
      have e : ((⌊sr' / f - 1 - 0.2⌋.toNat : ℕ) : ℤ) = ⌊sr' / f - 1 - 0.2⌋ := Int.toNat_of_nonneg (by omega)
      exact_mod_cast congrArg (Int.cast (R := ℝ)) e
    rw [this]; ring
  · rw [e0]
    generalize ht : ({ s with sr := sr', initialized := false } : PluckSt) = t
    have hrd : PluckSt.Ready (t.prep rnd) := PluckSt.ready_prep rnd t (by rw [← ht]; show 0 < s.frequency; rw [h3]; exact hf)
      (by rw [← ht]; show 2.2 * s.frequency ≤ sr'; rw [h3]; exact hr') (by rw [← ht]; simp)
    have ep : t.prep rnd = t.initLine rnd := by rw [← ht]; simp [PluckSt.prep]
    have p1 : (t.prep rnd).pos = 0 := by rw [ep]; rfl
    have p2 : (t.prep rnd).damping = s.damping := by rw [ep, ← ht]; rfl
    have p3 : (t.prep rnd).weights = PluckSt.fir3 (1 - d) := by rw [ep, ← ht]; exact h1
    have p4 : (t.prep rnd).gain = gps ^ (1 / f) := by rw [ep, ← ht]; exact h2
    have p5 : (t.prep rnd).line.length = ⌊sr' / f - 1 - 0.2⌋.toNat := by rw [ep, ← ht, ← h3]; simp [PluckSt.initLine]
    have p6 : (t.prep rnd).tuning = ⟨0, 0, allpoleEta (sr' / f - 1 - ⌊sr' / f - 1 - 0.2⌋)⟩ := by rw [ep, ← ht, ← h3]; rfl
    have p7 : ∀ i < ⌊sr' / f - 1 - 0.2⌋.toNat, (t.prep rnd).line.getD i 0 = excitation rnd h ⌊sr' / f - 1 - 0.2⌋.toNat i := by
      intro i hi
      rw [ep, ← ht]
      subst h3 h5
      simp only [PluckSt.initLine, List.getD_eq_getElem?_getD, List.map_map, List.getElem?_map, List.getElem?_range hi, excitation, List.length_map,
        List.length_range, Option.map_some, Option.getD_some, Function.comp]
      congr 2
    generalize hs : t.prep rnd = s at *
    refine ⟨s.outs (fun k => w k 0), s.drive (fun k => w k 0), s.firOut (s.drive (fun k => w k 0)), fun n => ?_, fun n => ?_, fun n => ?_, fun n => ?_⟩
    · rw [PluckSt.stream_run rnd _ (by rw [hs]; exact hrd), hs]
    · unfold PluckSt.drive PluckSt.back
      rw [p4, p5]
      split
      · rw [p7 _ ‹_›]
      · rfl
    · unfold PluckSt.firOut; rw [p2, p3, PluckSt.fir3_eq]
    · rw [PluckSt.outs_eq hrd p1, p6]

/-- **C75.** Blocks equal ticks. -/
theorem C75_block (rnd : Nat → Nat → ℝ) : BlockEqualsTick (pluck rnd) := (tickBlock_iff _).1 (tickBlock_ofTick _ _)

/-- The hypotheses are met by a concert A at 44100 Hz. -/
example : (0 : ℝ) < 440 ∧ (2.2 : ℝ) * 440 ≤ 44100 ∧ (0 : ℝ) ≤ 0.5 ∧ (0.5 : ℝ) < 1 := by norm_num

end Fundsp.Osc
