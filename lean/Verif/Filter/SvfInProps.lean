import Verif.Filter.SvfIn
/-! Properties C81 (morphing filter) and C82 (state variable filters with parameter inputs and settings). -/

namespace Fundsp.Filter
open _root_.Filter Topology

/-! ## Specification: a filter whose coefficients change with time -/

/-- The parameters carried by one input frame; modes without gain keep the gain they were made with. -/
def paramsAt (m : SvfMode) (p0 : SvfParams) (x : Frame ℝ m.arity) : SvfParams :=
  ⟨p0.sr, Frame.rd x 1, Frame.rd x 2, if m.usesGain then Frame.rd x 3 else p0.gain⟩

/-- The parameters after `n` samples when the inputs are read on every `P`th sample: those of the last sample read, `p0` if none was. -/
def held (m : SvfMode) (p0 : SvfParams) (P : Nat) (w : Nat → Frame ℝ m.arity) (n : Nat) : SvfParams :=
  if n / P = 0 then p0 else paramsAt m p0 (w (P * (n / P) - 1))

/-- State of the two integrators before sample `k` when the coefficients at sample `j` are `c j`. -/
noncomputable def varying (c : Nat → SvfCoefs ℝ) (s : ℝ × ℝ) (x : Nat → ℝ) : Nat → ℝ × ℝ
  | 0 => s
  | k + 1 => (svfTick (c k) (varying c s x k) (x k)).1

/-- A state whose coefficients are those of its parameters. -/
def SvfSt.Consistent (m : SvfMode) (s : SvfSt) : Prop := s.coefs = m.coefs s.p

theorem updateInputs_eq (m : SvfMode) (s : SvfSt) (x : Frame ℝ m.arity) (h : s.Consistent m) :
    s.updateInputs m x = { s with p := paramsAt m s.p x, coefs := m.coefs (paramsAt m s.p x) } := by
  obtain ⟨⟨sr, c, q, a⟩, co, ic, P, n⟩ := s
  unfold SvfSt.Consistent at h
  simp only at h
  subst h
  unfold SvfSt.updateInputs paramsAt
  by_cases hg : m.usesGain = true
  · simp only [hg, if_true]
    split
    · rfl
    · rename_i hn
      push Not at hn
      obtain ⟨h1, h2, h3⟩ := hn
      rw [h1, h2, h3]
  · rw [if_neg hg]
    simp only [if_neg hg]
    split
    · rfl
    · rename_i hn
      push Not at hn
      obtain ⟨h1, h2⟩ := hn
      rw [h1, h2]

theorem latch_eq (m : SvfMode) (s : SvfSt) (x : Frame ℝ m.arity) (h : s.Consistent m) :
    s.latch m x = if s.counter + 1 ≥ s.period then { s with p := paramsAt m s.p x, coefs := m.coefs (paramsAt m s.p x), counter := 0 }
      else { s with counter := s.counter + 1 } := by
  unfold SvfSt.latch
  rw [updateInputs_eq m { s with counter := 0 } x h]

theorem paramsAt_held (m : SvfMode) (p0 : SvfParams) (P : Nat) (w : Nat → Frame ℝ m.arity) (n : Nat) (x : Frame ℝ m.arity) :
    paramsAt m (held m p0 P w n) x = paramsAt m p0 x := by
  unfold held
  split
  · rfl
  · unfold paramsAt
    cases m.usesGain <;> rfl

theorem svfIn_st (m : SvfMode) (s : SvfSt) (h : s.Consistent m) (hc : s.counter = 0) (hP : 1 ≤ s.period) (w : Nat → Frame ℝ m.arity) (k : Nat) :
    (svfIn m).ticks.st s w k = (⟨held m s.p s.period w k, m.coefs (held m s.p s.period w k),
      varying (fun j => m.coefs (held m s.p s.period w (j + 1))) s.ic (fun j => Frame.rd (w j) 0) k, s.period, k % s.period⟩ : SvfSt) := by
  induction k with
  | zero =>
    have e : held m s.p s.period w 0 = s.p := by simp [held]
    rw [e, Nat.zero_mod]
    obtain ⟨p, co, ic, P, n⟩ := s
    unfold SvfSt.Consistent at h
    simp only at h hc
    subst h hc
    rfl
  | succ k ih =>
    have e : (svfIn m).ticks.st s w (k + 1) = (SvfSt.tick m ((svfIn m).ticks.st s w k) (w k)).1 := rfl
    rw [e, ih]
    obtain ⟨P, hPe⟩ : ∃ P, P = s.period := ⟨_, rfl⟩
    rw [← hPe] at hP ⊢
    unfold SvfSt.tick
    rw [latch_eq]
    swap
    · exact rfl
    simp only
    have hd := Nat.div_add_mod k P
    have hr := Nat.mod_lt k hP
    by_cases hq : k % P + 1 ≥ P
    · have hk : k + 1 = P * (k / P + 1) := by rw [Nat.mul_add]; omega
      have h1 : (k + 1) / P = k / P + 1 := by rw [hk]; exact Nat.mul_div_cancel_left _ hP
      have h2 : (k + 1) % P = 0 := by rw [hk]; exact Nat.mul_mod_right _ _
      have h3 : held m s.p P w (k + 1) = paramsAt m s.p (w k) := by
        unfold held
        rw [h1, if_neg (Nat.succ_ne_zero _), ← hk]; rfl
      rw [if_pos hq, paramsAt_held, h2, h3]
      simp only [varying, h3]
      rfl
    · have hk : k + 1 = (k % P + 1) + P * (k / P) := by omega
      have h1 : (k + 1) / P = k / P := by
        rw [hk, Nat.add_mul_div_left _ _ hP, Nat.div_eq_of_lt (by omega)]; omega
      have h2 : (k + 1) % P = k % P + 1 := by
        conv_lhs => rw [hk]
        rw [Nat.add_mul_mod_self_left]; exact Nat.mod_eq_of_lt (by omega)
      have h3 : held m s.p P w (k + 1) = held m s.p P w k := by unfold held; rw [h1]
      rw [if_neg hq, h2, h3]
      simp only [varying, h3]
      rfl

/-- **C82.** The filter with parameter inputs: with the parameters read every `period` samples, the output is that of the filter
whose coefficients at each sample are the documented ones for the parameters last read. -/
theorem C82_output (m : SvfMode) (s : SvfSt) (h : s.Consistent m) (hc : s.counter = 0) (hP : 1 ≤ s.period) (w : Nat → Frame ℝ m.arity) (k : Nat) :
    (svfIn m).stream s w k 0 = (svfTick (m.coefs (held m s.p s.period w (k + 1)))
      (varying (fun j => m.coefs (held m s.p s.period w (j + 1))) s.ic (fun j => Frame.rd (w j) 0) k) (Frame.rd (w k) 0)).2 := by
  have e : (svfIn m).stream s w k 0 = (SvfSt.tick m ((svfIn m).ticks.st s w k) (w k)).2 0 := rfl
  have e1 : (svfIn m).ticks.st s w (k + 1) = (SvfSt.tick m ((svfIn m).ticks.st s w k) (w k)).1 := rfl
  have hs := svfIn_st m s h hc hP w (k + 1)
  rw [e1] at hs
  have h0 := svfIn_st m s h hc hP w k
  rw [e]
  have hco : (SvfSt.latch m ((svfIn m).ticks.st s w k) (w k)).coefs = m.coefs (held m s.p s.period w (k + 1)) :=
    congrArg SvfSt.coefs hs
  have hic : (SvfSt.latch m ((svfIn m).ticks.st s w k) (w k)).ic =
      varying (fun j => m.coefs (held m s.p s.period w (j + 1))) s.ic (fun j => Frame.rd (w j) 0) k := by
    rw [h0, latch_eq]
    swap
    · exact rfl
    split <;> rfl
  show (svfTick (SvfSt.latch m ((svfIn m).ticks.st s w k) (w k)).coefs (SvfSt.latch m ((svfIn m).ticks.st s w k) (w k)).ic _).2 = _
  rw [hco, hic]

/-- **C82.** With the default period the parameters at each sample are the inputs at that sample. -/
theorem C82_immediate (m : SvfMode) (p0 : SvfParams) (w : Nat → Frame ℝ m.arity) (k : Nat) :
    held m p0 1 w (k + 1) = paramsAt m p0 (w k) := by
  unfold held
  simp

/-- **C82.** A freshly made filter reads its inputs at every sample; the subsampling setting changes the period (at least one), starting
a new period. -/
theorem C82_settings (m : SvfMode) (p : SvfParams) (s : SvfSt) (P : Nat) (sr : ℝ) :
    ((SvfSt.new m p).Consistent m ∧ (SvfSt.new m p).counter = 0 ∧ (SvfSt.new m p).period = 1 ∧ (SvfSt.new m p).ic = (0, 0) ∧ (SvfSt.new m p).p = p) ∧
    ((s.setSubsample P).counter = 0 ∧ (s.setSubsample P).period = (if P = 0 then 1 else P) ∧ (s.setSubsample P).p = s.p ∧
      (s.setSubsample P).coefs = s.coefs ∧ (s.setSubsample P).ic = s.ic) ∧
    ((s.setSampleRate m sr).Consistent m ∧ (s.setSampleRate m sr).p = ⟨sr, s.p.cutoff, s.p.q, s.p.gain⟩ ∧ (s.setSampleRate m sr).ic = s.ic ∧
      (s.setSampleRate m sr).period = s.period ∧ (s.setSampleRate m sr).counter = s.counter) := by
  refine ⟨⟨rfl, rfl, rfl, rfl, rfl⟩, ⟨rfl, ?_, rfl, rfl, rfl⟩, rfl, rfl, rfl, rfl, rfl⟩
  show max 1 P = _
  split <;> omega

theorem svfNode_varying (c : SvfCoefs ℝ) (s : ℝ × ℝ) (x : Nat → Frame ℝ 1) (k : Nat) :
    (svfNode c).ticks.st s x k = varying (fun _ => c) s (fun j => x j 0) k := by
  induction k with
  | zero => rfl
  | succ k ih =>
    have e : (svfNode c).ticks.st s x (k + 1) = (svfTick c ((svfNode c).ticks.st s x k) (x k 0)).1 := rfl
    rw [e, ih]
    rfl

/-- **C82.** With constant parameter inputs the filter is the fixed filter with those parameters, from any state of the integrators. -/
theorem C82_constant (m : SvfMode) (s : SvfSt) (h : s.Consistent m) (hc : s.counter = 0) (hP : s.period = 1) (w : Nat → Frame ℝ m.arity)
    (p : SvfParams) (hp : ∀ k, paramsAt m s.p (w k) = p) (k : Nat) :
    (svfIn m).stream s w k 0 = (svfNode (m.coefs p)).stream s.ic (fun j _ => Frame.rd (w j) 0) k 0 := by
  rw [C82_output m s h hc (by omega) w k]
  have e : (svfNode (m.coefs p)).stream s.ic (fun j _ => Frame.rd (w j) 0) k 0
      = (svfTick (m.coefs p) ((svfNode (m.coefs p)).ticks.st s.ic (fun j _ => Frame.rd (w j) 0) k) (Frame.rd (w k) 0)).2 := rfl
  rw [e, svfNode_varying]
  have hh : ∀ j, held m s.p s.period w (j + 1) = p := fun j => by rw [hP, C82_immediate]; exact hp j
  simp only [hh]

/-- The filter with its parameter inputs held. -/
noncomputable def svfPinned (m : SvfMode) (f q a : ℝ) : Node ℝ 1 1 :=
  .ofTick SvfSt SvfSt.reset (fun s x => s.tick m (fun i => if i.1 = 0 then x 0 else if i.1 = 1 then f else if i.1 = 2 then q else a))

/-- **C82.** Its frequency response with held inputs is that of the fixed filter, hence the one reported. -/
theorem C82_response (m : SvfMode) (sr f q a gain0 : ℝ) (hg : m.usesGain = false → a = gain0) (θ : ℝ) (H : ℂ)
    (h : HasResponse (svfNode (m.coefs ⟨sr, f, q, a⟩)) (fun _ => True) θ H) :
    HasResponse (svfPinned m f q a) (fun s : SvfSt => s.Consistent m ∧ s.counter = 0 ∧ s.period = 1 ∧ s.p.sr = sr ∧ s.p.gain = gain0) θ H := by
  obtain ⟨G, hG⟩ := h
  refine ⟨G, fun s x A d hs hx => ?_⟩
  obtain ⟨h1, h2, h3, h4, h5⟩ := hs
  have := hG (s : SvfSt).ic x A d trivial hx
  refine this.congr_tail 0 (fun k _ => ?_)
  set w : Nat → Frame ℝ m.arity := fun j i => if i.1 = 0 then x j 0 else if i.1 = 1 then f else if i.1 = 2 then q else a with hw
  have e : ∀ k, (svfPinned m f q a).ticks.st s x k = (svfIn m).ticks.st s w k := by
    intro k
    induction k with
    | zero => rfl
    | succ k ih =>
      have e1 : (svfPinned m f q a).ticks.st s x (k + 1) = (SvfSt.tick m ((svfPinned m f q a).ticks.st s x k) (w k)).1 := rfl
      rw [e1, ih]; rfl
  have e2 : (svfPinned m f q a).ticks.out s x k 0 = (SvfSt.tick m ((svfPinned m f q a).ticks.st s x k) (w k)).2 0 := rfl
  rw [e2, e]
  have har : 3 ≤ m.arity := by cases m <;> decide
  have hr0 : ∀ j, Frame.rd (w j) 0 = x j 0 := fun j => by simp [Frame.rd, hw, show 0 < m.arity by omega]
  have hp : ∀ j, paramsAt m (s : SvfSt).p (w j) = ⟨sr, f, q, a⟩ := by
    intro j
    unfold paramsAt
    have r1 : Frame.rd (w j) 1 = f := by simp [Frame.rd, hw, show 1 < m.arity by omega]
    have r2 : Frame.rd (w j) 2 = q := by simp [Frame.rd, hw, show 2 < m.arity by omega]
    rw [r1, r2, h4, h5]
    by_cases hm : m.usesGain = true
    · have : 3 < m.arity := by unfold SvfMode.arity; rw [if_pos hm]; omega
      have r3 : Frame.rd (w j) 3 = a := by simp [Frame.rd, hw, this]
      rw [if_pos hm, r3]
    · rw [if_neg hm, hg (by simpa using hm)]
  have key := C82_constant m s h1 h2 h3 w ⟨sr, f, q, a⟩ hp k
  refine Eq.trans key ?_
  show (svfNode (m.coefs ⟨sr, f, q, a⟩)).ticks.out (s : SvfSt).ic (fun j _ => Frame.rd (w j) 0) k 0 = _
  congr 2
  funext j i
  rw [hr0, Subsingleton.elim i 0]

/-! ## Stability under modulation -/

/-- Parameters for which the filter is defined: centre below half the sample rate, positive Q and gain. -/
def SvfParams.Valid (p : SvfParams) : Prop := 0 < p.cutoff ∧ 2 * p.cutoff < p.sr ∧ 0 < p.q ∧ 0 < p.gain

/-- Each mode is the common circuit with some `g`, `k > 0` and output mix. -/
theorem mode_coefs (m : SvfMode) {p : SvfParams} (h : p.Valid) :
    ∃ g k m0 m1 m2, 0 < g ∧ 0 < k ∧ m.coefs p = svfCoefs g k m0 m1 m2 := by
  obtain ⟨h1, h2, h3, h4⟩ := h
  have ht : 0 < Real.tan (Real.pi * p.cutoff / p.sr) := C44_svf_cutoff h1 h2
  have ha : 0 < √p.gain := Real.sqrt_pos.2 h4
  have hsa : 0 < √√p.gain := Real.sqrt_pos.2 ha
  cases m
  case bell => exact ⟨_, _, _, _, _, ht, by positivity, rfl⟩
  case lowshelf => exact ⟨_, _, _, _, _, div_pos ht hsa, one_div_pos.2 h3, rfl⟩
  case highshelf => exact ⟨_, _, _, _, _, mul_pos ht hsa, one_div_pos.2 h3, rfl⟩
  all_goals exact ⟨_, _, _, _, _, ht, one_div_pos.2 h3, rfl⟩

theorem held_valid {m : SvfMode} {p0 : SvfParams} {P : Nat} {w : Nat → Frame ℝ m.arity} (h0 : p0.Valid) (hw : ∀ k, (paramsAt m p0 (w k)).Valid)
    (n : Nat) : (held m p0 P w n).Valid := by
  unfold held
  split
  · exact h0
  · exact hw _

/-- Power balance of one sample: the energy supplied is bounded by the bandpass bandwidth term. -/
theorem svf_balance {g k : ℝ} (hg : 0 < g) (hk : 0 < k) (m0 m1 m2 : ℝ) (s : ℝ × ℝ) (x : ℝ) :
    (svfTick (svfCoefs g k m0 m1 m2) s x).1.1 ^ 2 + (svfTick (svfCoefs g k m0 m1 m2) s x).1.2 ^ 2 ≤ s.1 ^ 2 + s.2 ^ 2 + g / k * x ^ 2 := by
  obtain ⟨v1, hv⟩ : ∃ v1, v1 = (svfCoefs g k m0 m1 m2).a1 * s.1 + (svfCoefs g k m0 m1 m2).a2 * (x - s.2) := ⟨_, rfl⟩
  have hD : 1 + g * (g + k) ≠ 0 := by positivity
  have e : (svfTick (svfCoefs g k m0 m1 m2) s x).1.1 ^ 2 + (svfTick (svfCoefs g k m0 m1 m2) s x).1.2 ^ 2
      = s.1 ^ 2 + s.2 ^ 2 + (4 * g * x * v1 - 4 * g * k * v1 ^ 2) := by
    rw [hv]
    simp only [svfTick, svfCoefs]
    field_simp
    ring
  rw [e]
  have h2 : g / k * x ^ 2 - (4 * g * x * v1 - 4 * g * k * v1 ^ 2) = g / k * (x - 2 * k * v1) ^ 2 := by field_simp; ring
  have h3 : 0 ≤ g / k * (x - 2 * k * v1) ^ 2 := by positivity
  linarith

/-- **C82.** Whatever the parameter inputs do (within the valid range), with a silent audio input the stored energy never grows: modulation
alone cannot make the filter unstable. -/
theorem C82_energy (m : SvfMode) (s : SvfSt) (h : s.Consistent m) (hc : s.counter = 0) (hP : 1 ≤ s.period) (w : Nat → Frame ℝ m.arity)
    (hx : ∀ k, Frame.rd (w k) 0 = 0) (hp : s.p.Valid) (hv : ∀ k, (paramsAt m s.p (w k)).Valid) (j k : Nat) (hjk : j ≤ k) :
    let a : SvfSt := (svfIn m).ticks.st s w j
    let b : SvfSt := (svfIn m).ticks.st s w k
    b.ic.1 ^ 2 + b.ic.2 ^ 2 ≤ a.ic.1 ^ 2 + a.ic.2 ^ 2 := by
  intro a b
  have ha : a.ic = varying (fun j => m.coefs (held m s.p s.period w (j + 1))) s.ic (fun j => Frame.rd (w j) 0) j :=
    congrArg SvfSt.ic (svfIn_st m s h hc hP w j)
  have hb : b.ic = varying (fun j => m.coefs (held m s.p s.period w (j + 1))) s.ic (fun j => Frame.rd (w j) 0) k :=
    congrArg SvfSt.ic (svfIn_st m s h hc hP w k)
  rw [ha, hb]
  clear ha hb
  induction k, hjk using Nat.le_induction with
  | base => exact le_refl _
  | succ k _ ih =>
    refine le_trans ?_ ih
    obtain ⟨g, r, m0, m1, m2, hg, hr, e⟩ := mode_coefs m (held_valid (P := s.period) hp hv (k + 1))
    simp only [varying]
    rw [e, hx k]
    have := svf_balance hg hr m0 m1 m2 (varying (fun j => m.coefs (held m s.p s.period w (j + 1))) s.ic (fun j => Frame.rd (w j) 0) k) 0
    simpa using this

/-- **C82.** With an audio input: if the ratio of prewarped frequency to bandwidth `tan(pi f / sr) * Q` stays at most `B`, the energy stored after `n` samples is at
most the initial energy plus `B` times the energy received. Stated for the modes without gain. -/
theorem C82_bounded (m : SvfMode) (hm : m.usesGain = false) (s : SvfSt) (h : s.Consistent m) (hc : s.counter = 0) (hP : 1 ≤ s.period)
    (w : Nat → Frame ℝ m.arity) (hp : s.p.Valid) (hv : ∀ k, (paramsAt m s.p (w k)).Valid) (B : ℝ)
    (hB0 : Real.tan (Real.pi * s.p.cutoff / s.p.sr) * s.p.q ≤ B)
    (hB : ∀ k, Real.tan (Real.pi * Frame.rd (w k) 1 / s.p.sr) * Frame.rd (w k) 2 ≤ B) (n : Nat) :
    let b : SvfSt := (svfIn m).ticks.st s w n
    b.ic.1 ^ 2 + b.ic.2 ^ 2 ≤ s.ic.1 ^ 2 + s.ic.2 ^ 2 + B * ∑ k ∈ Finset.range n, Frame.rd (w k) 0 ^ 2 := by
  intro b
  have hb : b.ic = varying (fun j => m.coefs (held m s.p s.period w (j + 1))) s.ic (fun j => Frame.rd (w j) 0) n :=
    congrArg SvfSt.ic (svfIn_st m s h hc hP w n)
  rw [hb]
  clear hb b
  induction n with
  | zero => simp [varying]
  | succ n ih =>
    obtain ⟨p, hpe⟩ : ∃ p, p = held m s.p s.period w (n + 1) := ⟨_, rfl⟩
    have hpv : p.Valid := by rw [hpe]; exact held_valid hp hv _
    have hpB : Real.tan (Real.pi * p.cutoff / p.sr) * p.q ≤ B := by
      rw [hpe]; unfold held
      split
      · exact hB0
      · exact hB _
    have ht : 0 < Real.tan (Real.pi * p.cutoff / p.sr) := C44_svf_cutoff hpv.1 hpv.2.1
    have hq := hpv.2.2.1
    have hco : ∃ m0 m1 m2, m.coefs p = svfCoefs (Real.tan (Real.pi * p.cutoff / p.sr)) (1 / p.q) m0 m1 m2 := by
      cases m <;> first | exact ⟨_, _, _, rfl⟩ | exact absurd hm (by decide)
    obtain ⟨m0, m1, m2, e⟩ := hco
    simp only [varying]
    rw [← hpe, e]
    have := svf_balance ht (one_div_pos.2 hq) m0 m1 m2
      (varying (fun j => m.coefs (held m s.p s.period w (j + 1))) s.ic (fun j => Frame.rd (w j) 0) n) (Frame.rd (w n) 0)
    have e2 : Real.tan (Real.pi * p.cutoff / p.sr) / (1 / p.q) = Real.tan (Real.pi * p.cutoff / p.sr) * p.q := by
      rw [div_div_eq_mul_div, div_one]
    rw [e2] at this
    have h3 : Real.tan (Real.pi * p.cutoff / p.sr) * p.q * Frame.rd (w n) 0 ^ 2 ≤ B * Frame.rd (w n) 0 ^ 2 :=
      mul_le_mul_of_nonneg_right hpB (sq_nonneg _)
    rw [Finset.sum_range_succ, mul_add]
    linarith

/-! ## Reset -/

/-- **C82.** With the inputs read at every sample, resetting restores the behaviour of a new filter. -/
theorem C82_reset (m : SvfMode) (p : SvfParams) : ResetFresh (svfIn m) (SvfSt.new m p) := by
  refine TickFresh.ofTick ?_
  have key : ∀ (s : SvfSt) (x : Frame ℝ m.arity), s.period = 1 → s.Consistent m → s.p.sr = p.sr → (m.usesGain = false → s.p.gain = p.gain) →
      s.latch m x = ⟨paramsAt m p x, m.coefs (paramsAt m p x), s.ic, 1, 0⟩ := by
    intro s x h1 h2 h3 h4
    rw [latch_eq m s x h2, if_pos (by omega)]
    have : paramsAt m s.p x = paramsAt m p x := by
      unfold paramsAt
      rw [h3]
      by_cases hg : m.usesGain = true
      · simp [hg]
      · have hf : m.usesGain = false := by simpa using hg
        simp [hf, h4 hf]
    rw [this, h1]
  let P : SvfSt → Prop := fun s => s.period = 1 ∧ s.Consistent m ∧ s.p.sr = p.sr ∧ (m.usesGain = false → s.p.gain = p.gain)
  have hPt : ∀ (s : SvfSt) (x : Frame ℝ m.arity), P s → P (s.tick m x).1 := by
    intro s x ⟨h1, h2, h3, h4⟩
    have e : (s.tick m x).1 = { s.latch m x with ic := (svfTick (s.latch m x).coefs (s.latch m x).ic (Frame.rd x 0)).1 } := rfl
    rw [e, key s x h1 h2 h3 h4]
    refine ⟨rfl, rfl, rfl, fun hf => ?_⟩
    simp [paramsAt, hf]
  refine tickFresh_of_rel (n := svfIn m) P (fun s t : SvfSt => P s ∧ P t ∧ s.ic = t.ic) ⟨rfl, rfl, rfl, fun _ => rfl⟩ hPt
    (fun s h => h) (fun s h => ⟨h, ⟨rfl, rfl, rfl, fun _ => rfl⟩, rfl⟩) ?_
  intro (s : SvfSt) (t : SvfSt) x ⟨hs, ht, hic⟩
  have e : s.latch m x = t.latch m x := by
    rw [key s x hs.1 hs.2.1 hs.2.2.1 hs.2.2.2, key t x ht.1 ht.2.1 ht.2.2.1 ht.2.2.2, hic]
  refine ⟨⟨hPt s x hs, hPt t x ht, ?_⟩, ?_⟩
  · show (svfTick (s.latch m x).coefs (s.latch m x).ic (Frame.rd x 0)).1 = (svfTick (t.latch m x).coefs (t.latch m x).ic (Frame.rd x 0)).1
    rw [e]
  · show (fun _ => (svfTick (s.latch m x).coefs (s.latch m x).ic (Frame.rd x 0)).2) = (fun _ => (svfTick (t.latch m x).coefs (t.latch m x).ic (Frame.rd x 0)).2)
    rw [e]

/-- A frame of audio, cutoff and Q. -/
def frame3 (x f q : ℝ) : Frame ℝ SvfMode.lowpass.arity := fun i => if i.1 = 0 then x else if i.1 = 1 then f else q

/-- **C82, negative.** With subsampling the reset filter is not the new filter: it starts with the parameters in force before the reset.
A lowpass at a quarter of the sample rate made with Q 1 and read every second sample. -/
theorem C82_violation_reset :
    ¬ ResetFresh (svfIn .lowpass) ((SvfSt.new .lowpass ⟨4, 1, 1, 0⟩).setSubsample 2) := by
  intro hR
  obtain ⟨s0, hs0⟩ : ∃ s0 : SvfSt, s0 = (SvfSt.new .lowpass ⟨4, 1, 1, 0⟩).setSubsample 2 := ⟨_, rfl⟩
  have hcon : s0.Consistent .lowpass := by rw [hs0]; rfl
  have hc : s0.counter = 0 := by rw [hs0]; rfl
  have hP : s0.period = 2 := by rw [hs0]; rfl
  have hp : s0.p = ⟨4, 1, 1, 0⟩ := by rw [hs0]; rfl
  have hic : s0.ic = (0, 0) := by rw [hs0]; rfl
  rw [← hs0] at hR
  obtain ⟨s2, hs2⟩ : ∃ s2 : SvfSt, s2 = (svfIn .lowpass).ticks.st s0 (fun _ => frame3 0 1 2) 2 := ⟨_, rfl⟩
  have hT := hR.tickFresh
  have hreach : Reached (svfIn .lowpass) s0 (s2 : (svfIn .lowpass).σ) := by
    rw [hs2]
    exact Reached.tick _ (Reached.tick _ Reached.init)
  have h := hT s2 hreach (fun _ => frame3 1 1 2)
  have h0 := congrFun (congrFun h 0) 0
  have he2 := svfIn_st .lowpass s0 hcon hc (by omega) (fun _ => frame3 0 1 2) 2
  rw [← hs2] at he2
  have hheld : held .lowpass s0.p s0.period (fun _ => frame3 0 1 2) 2 = ⟨4, 1, 2, 0⟩ := by
    rw [hp, hP]
    simp [held, paramsAt, frame3, Frame.rd, SvfMode.arity, SvfMode.usesGain]
  rw [hheld, hP] at he2
  have hr : SvfSt.reset s2 = ⟨⟨4, 1, 2, 0⟩, SvfMode.lowpass.coefs ⟨4, 1, 2, 0⟩, (0, 0), 2, 0⟩ := by
    rw [he2]; rfl
  obtain ⟨t, ht⟩ : ∃ t : SvfSt, t = SvfSt.reset s2 := ⟨_, rfl⟩
  have h0' : (svfIn .lowpass).stream t (fun _ => frame3 1 1 2) 0 0 = (svfIn .lowpass).stream s0 (fun _ => frame3 1 1 2) 0 0 := by
    rw [ht]; exact h0
  rw [hr] at ht
  rw [C82_output .lowpass t (by rw [ht]; rfl) (by rw [ht]) (by rw [ht]; decide), C82_output .lowpass s0 hcon hc (by omega), hP, hp, hic] at h0'
  rw [ht] at h0'
  have htan : Real.tan (Real.pi * 1 / 4) = 1 := by rw [mul_one]; exact Real.tan_pi_div_four
  simp only [held, varying, SvfMode.coefs, svfLowpass, svfCoefs, svfTick, frame3, Frame.rd, SvfMode.arity, SvfMode.usesGain] at h0'
  norm_num at h0'

/-- **C82.** Blocks equal ticks. -/
theorem C82_block (m : SvfMode) : BlockEqualsTick (svfIn m) := (tickBlock_iff _).1 (tickBlock_ofTick _ _)

/-! ## Fixed filters with settings -/

/-- What the settings mean: the named parameters take the given values. -/
def FixedSet.apply (p : SvfParams) : FixedSet → SvfParams
  | .center c => ⟨p.sr, c, p.q, p.gain⟩
  | .centerQ c r => ⟨p.sr, c, r, p.gain⟩
  | .centerQGain c r a => ⟨p.sr, c, r, a⟩
  | .q r => ⟨p.sr, p.cutoff, r, p.gain⟩
  | .gain a => ⟨p.sr, p.cutoff, p.q, a⟩
  | .sampleRate sr => ⟨sr, p.cutoff, p.q, p.gain⟩

def FixedSet.IsGain : FixedSet → Prop
  | .gain _ => True
  | _ => False

/-- **C82, partial.** After any sequence of settings other than a lone gain change, and any ticks, the fixed filter continues as the filter
newly made with the resulting parameters would from the same integrator state. Missing: the gain setter (`C82_violation_gain`). -/
theorem C82_fixed_partial (m : SvfMode) (p : SvfParams) (l : List FixedSet) (hl : ∀ f ∈ l, ¬ f.IsGain) (ic : ℝ × ℝ) :
    l.foldl (FixedSt.set m) ⟨p, m.coefs p, ic⟩ = ⟨l.foldl FixedSet.apply p, m.coefs (l.foldl FixedSet.apply p), ic⟩ := by
  induction l generalizing p with
  | nil => rfl
  | cons f l ih =>
    simp only [List.foldl_cons]
    have hf : FixedSt.set m ⟨p, m.coefs p, ic⟩ f = ⟨f.apply p, m.coefs (f.apply p), ic⟩ := by
      cases f <;> first | rfl | exact (hl _ List.mem_cons_self trivial).elim
    rw [hf]
    exact ih _ (fun g hg => hl g (List.mem_cons_of_mem _ hg))

/-- **C82.** The fixed filter's stream is that of its coefficients. -/
theorem C82_fixed_output (s : FixedSt) (x : Nat → Frame ℝ 1) (k : Nat) : fixedSvf.stream s x k = (svfNode s.coefs).stream s.ic x k := by
  have e : ∀ k, fixedSvf.ticks.st s x k = (⟨s.p, s.coefs, (svfNode s.coefs).ticks.st s.ic x k⟩ : FixedSt) := by
    intro k
    induction k with
    | zero => rfl
    | succ k ih =>
      have e1 : fixedSvf.ticks.st s x (k + 1) = (FixedSt.tick (fixedSvf.ticks.st s x k) (x k)).1 := rfl
      rw [e1, ih]; rfl
  have e2 : fixedSvf.stream s x k = (FixedSt.tick (fixedSvf.ticks.st s x k) (x k)).2 := rfl
  rw [e2, e]; rfl

/-- **C82, negative.** Setting the gain of a bell (or shelf) alone changes nothing in the sound, although the parameter reads back changed: a bell
at a quarter of the sample rate whose gain is set from 1 to 4 still passes a first sample 1 as 1, while the bell made with gain 4 gives 8/5. -/
theorem C82_violation_gain :
    let s : FixedSt := FixedSt.set .bell (FixedSt.new .bell ⟨4, 1, 1, 1⟩) (.gain 4)
    s.p.gain = 4 ∧ fixedSvf.stream s (fun _ _ => 1) 0 0 = 1 ∧ fixedSvf.stream (FixedSt.new .bell ⟨4, 1, 1, 4⟩) (fun _ _ => 1) 0 0 = 8 / 5 := by
  have htan : Real.tan (Real.pi * 1 / 4) = 1 := by rw [mul_one]; exact Real.tan_pi_div_four
  have h4 : √(4 : ℝ) = 2 := by rw [show (4 : ℝ) = 2 ^ 2 by norm_num]; exact Real.sqrt_sq (by norm_num)
  refine ⟨rfl, ?_, ?_⟩
  · rw [C82_fixed_output]
    show (svfTick (SvfMode.bell.coefs ⟨4, 1, 1, 1⟩) (0, 0) 1).2 = 1
    simp only [SvfMode.coefs, svfBell, svfCoefs, svfTick, htan, Real.sqrt_one]
    norm_num
  · rw [C82_fixed_output]
    show (svfTick (SvfMode.bell.coefs ⟨4, 1, 1, 4⟩) (0, 0) 1).2 = 8 / 5
    simp only [SvfMode.coefs, svfBell, svfCoefs, svfTick, htan, h4]
    norm_num

/-- **C82.** Reset of the fixed filter restores the new filter. -/
theorem C82_fixed_reset (m : SvfMode) (p : SvfParams) : ResetFresh fixedSvf (FixedSt.new m p) := by
  refine resetFresh_ofTick_eq (fun s : FixedSt => s.p = p ∧ s.coefs = m.coefs p) ⟨rfl, rfl⟩ (fun s x h => h) ?_
  intro s ⟨h1, h2⟩
  show (⟨s.p, s.coefs, (0, 0)⟩ : FixedSt) = _
  rw [h1, h2]; rfl

/-- Non-vacuity: a lowpass swept from 100 to 1000 Hz and back with subsampling 16 meets the hypotheses of `C82_energy`. -/
example : ∃ (s : SvfSt) (w : Nat → Frame ℝ SvfMode.lowpass.arity), s.Consistent .lowpass ∧ s.counter = 0 ∧ s.period = 16 ∧ s.ic ≠ (0, 0) ∧
    (∀ k, Frame.rd (w k) 0 = 0) ∧ s.p.Valid ∧ (∀ k, (paramsAt .lowpass s.p (w k)).Valid) ∧ w 0 ≠ w 1 := by
  refine ⟨⟨⟨44100, 100, 1, 1⟩, SvfMode.lowpass.coefs ⟨44100, 100, 1, 1⟩, (1, 0), 16, 0⟩, fun k => frame3 0 (if k % 2 = 0 then 100 else 1000) 1,
    rfl, rfl, rfl, by simp, fun k => ?_, ?_, fun k => ?_, fun h => ?_⟩
  · simp [Frame.rd, frame3]
  · refine ⟨?_, ?_, ?_, ?_⟩ <;> norm_num
  · simp only [paramsAt, Frame.rd, frame3, SvfMode.arity, SvfMode.usesGain, SvfParams.Valid]
    rcases Nat.mod_two_eq_zero_or_one k with h | h <;> norm_num [h]
  · have := congrFun h ⟨1, by decide⟩
    simp [frame3] at this

/-! ## Morph -/

/-- The peak filter, the lowpass, the bandpass and the highpass share the integrators, so they can run side by side. -/
theorem svfTick_ic (m : SvfMode) (hm : m.usesGain = false) (p : SvfParams) (s : ℝ × ℝ) (x : ℝ) :
    (svfTick (m.coefs p) s x).1 = (svfTick (SvfMode.peak.coefs p) s x).1 := by
  cases m <;> first | rfl | exact absurd hm (by decide)

theorem varying_ic (m : SvfMode) (hm : m.usesGain = false) (p : Nat → SvfParams) (s : ℝ × ℝ) (x : Nat → ℝ) (k : Nat) :
    varying (fun j => m.coefs (p j)) s x k = varying (fun j => SvfMode.peak.coefs (p j)) s x k := by
  induction k with
  | zero => rfl
  | succ k ih => simp only [varying]; rw [ih, svfTick_ic m hm]

theorem morph_st (s : MorphSt) (w : Nat → Frame ℝ 4) (k : Nat) :
    ((morph.ticks.st s w k : MorphSt)).filter = (svfIn .peak).ticks.st s.filter (fun j => first3 (w j)) k := by
  induction k with
  | zero => rfl
  | succ k ih =>
    have e : morph.ticks.st s w (k + 1) = (MorphSt.tick (morph.ticks.st s w k) (w k)).1 := rfl
    rw [e]
    show (SvfSt.tick .peak (morph.ticks.st s w k : MorphSt).filter (first3 (w k))).1 = _
    rw [ih]; rfl

theorem morph_out (s : MorphSt) (w : Nat → Frame ℝ 4) (k : Nat) :
    morph.stream s w k 0 = ((svfIn .peak).stream s.filter (fun j => first3 (w j)) k 0 + w k 3 * w k 0) / 2 := by
  have e : morph.stream s w k 0 = ((SvfSt.tick .peak (morph.ticks.st s w k : MorphSt).filter (first3 (w k))).2 0 + w k 3 * w k 0) * 0.5 := rfl
  rw [e, morph_st]
  show (_ + _) * 0.5 = _
  rw [show (0.5 : ℝ) = 1 / 2 by norm_num, mul_one_div]; rfl

/-- The first three inputs, as inputs of a filter of mode `m`. -/
def cut3 (m : SvfMode) (x : Frame ℝ 4) : Frame ℝ m.arity := fun i => if h : i.1 < 4 then x ⟨i.1, h⟩ else 0

/-- **C81, partial.** What the morphing filter computes, in terms of the lowpass, bandpass and highpass filters given the same audio, cutoff and Q:
with morph value `v` and resonance `Q`, `((1 + v) hp - (1 - v) lp + (v / Q) bp) / 2`. The documentation has the lowpass at -1, the peak filter at 0
and the highpass at 1; missing is exactly that (`C81_violation_ends`, `C81_peak`). -/
theorem C81_blend_partial (sr f q v : ℝ) (w : Nat → Frame ℝ 4)
    (hf : ∀ k, 0 < w k 1 ∧ 2 * w k 1 < sr ∧ 0 < w k 2) (k : Nat) :
    morph.stream (MorphSt.new sr f q v) w k 0 =
      ((1 + w k 3) * (svfIn .highpass).stream (SvfSt.new .highpass ⟨sr, f, q, 0⟩) (fun j => cut3 .highpass (w j)) k 0
        - (1 - w k 3) * (svfIn .lowpass).stream (SvfSt.new .lowpass ⟨sr, f, q, 0⟩) (fun j => cut3 .lowpass (w j)) k 0
        + w k 3 / w k 2 * (svfIn .bandpass).stream (SvfSt.new .bandpass ⟨sr, f, q, 0⟩) (fun j => cut3 .bandpass (w j)) k 0) / 2 := by
  rw [morph_out]
  have hx : first3 = cut3 .peak := by
    funext x i
    unfold first3 cut3
    rw [dif_pos (lt_of_lt_of_le i.2 (by decide))]
  rw [hx]
  obtain ⟨p, hp⟩ : ∃ p : Nat → SvfParams, p = fun k => ⟨sr, w k 1, w k 2, 0⟩ := ⟨_, rfl⟩
  have key : ∀ m : SvfMode, m.usesGain = false → (svfIn m).stream (SvfSt.new m ⟨sr, f, q, 0⟩) (fun j => cut3 m (w j)) k 0 =
      (svfTick (m.coefs (p k)) (varying (fun j => SvfMode.peak.coefs (p j)) (0, 0) (fun j => w j 0) k) (w k 0)).2 := by
    intro m hm
    rw [C82_output m (SvfSt.new m _) (show SvfSt.Consistent m _ from rfl) rfl (le_refl 1)]
    have har : m.arity = 3 := by unfold SvfMode.arity; rw [hm]; rfl
    have hh : ∀ j, held m (SvfSt.new m ⟨sr, f, q, 0⟩).p (SvfSt.new m ⟨sr, f, q, 0⟩).period (fun j => cut3 m (w j)) (j + 1) = p j := by
      intro j
      show held m ⟨sr, f, q, 0⟩ 1 _ (j + 1) = p j
      rw [C82_immediate, hp]
      unfold paramsAt Frame.rd cut3
      simp [har, hm]
    have hr : ∀ j, Frame.rd (cut3 m (w j)) 0 = w j 0 := fun j => by unfold Frame.rd cut3; simp [har]
    simp only [hh, hr]
    rw [varying_ic m hm p]
    rfl
  have k1 := key .peak rfl
  have e1 : (MorphSt.new sr f q v).filter = SvfSt.new .peak ⟨sr, f, q, 0⟩ := rfl
  rw [e1, k1, key .highpass rfl, key .lowpass rfl, key .bandpass rfl]
  obtain ⟨s, hs⟩ : ∃ s, s = varying (fun j => SvfMode.peak.coefs (p j)) (0, 0) (fun j => w j 0) k := ⟨_, rfl⟩
  rw [← hs, hp]
  have ht : 0 < Real.tan (Real.pi * w k 1 / sr) := C44_svf_cutoff (hf k).1 (hf k).2.1
  obtain ⟨t, hte⟩ : ∃ t, t = Real.tan (Real.pi * w k 1 / sr) := ⟨_, rfl⟩
  simp only [SvfMode.coefs, svfPeak, svfHighpass, svfLowpass, svfBandpass, svfCoefs, svfTick]
  rw [← hte] at ht ⊢
  have hq' := (hf k).2.2.ne'
  field_simp
  ring

/-- **C81.** At morph zero the output is the peak filter's, halved. -/
theorem C81_peak (s : MorphSt) (w : Nat → Frame ℝ 4) (k : Nat) (h : w k 3 = 0) :
    morph.stream s w k 0 = (svfIn .peak).stream s.filter (fun j => first3 (w j)) k 0 / 2 := by
  rw [morph_out, h]; ring

/-- **C81, negative.** At morph -1 the output is not that of the lowpass filter: at a quarter of the sample rate with Q 1 the first samples
are -1/2 and 1/3; nor is it that of the highpass at morph 1: 1/2 against 1/3. -/
theorem C81_violation_ends :
    morph.stream (MorphSt.new 4 1 1 0) (fun _ => ![1, 1, 1, -1]) 0 0 = -1 / 2 ∧
    (svfIn .lowpass).stream (SvfSt.new .lowpass ⟨4, 1, 1, 0⟩) (fun _ => cut3 .lowpass ![1, 1, 1, -1]) 0 0 = 1 / 3 ∧
    morph.stream (MorphSt.new 4 1 1 0) (fun _ => ![1, 1, 1, 1]) 0 0 = 1 / 2 ∧
    (svfIn .highpass).stream (SvfSt.new .highpass ⟨4, 1, 1, 0⟩) (fun _ => cut3 .highpass ![1, 1, 1, 1]) 0 0 = 1 / 3 := by
  have htan : Real.tan (Real.pi * 1 / 4) = 1 := by rw [mul_one]; exact Real.tan_pi_div_four
  have key : ∀ (m : SvfMode) (hm : m.usesGain = false) (v : ℝ),
      (svfIn m).stream (SvfSt.new m ⟨4, 1, 1, 0⟩) (fun _ => cut3 m ![1, 1, 1, v]) 0 0 = (svfTick (m.coefs ⟨4, 1, 1, 0⟩) (0, 0) 1).2 := by
    intro m hm v
    rw [C82_output m (SvfSt.new m _) (show SvfSt.Consistent m _ from rfl) rfl (le_refl 1)]
    have har : m.arity = 3 := by unfold SvfMode.arity; rw [hm]; rfl
    have hh : held m (SvfSt.new m ⟨4, 1, 1, 0⟩).p (SvfSt.new m ⟨4, 1, 1, 0⟩).period (fun _ => cut3 m ![1, 1, 1, v]) (0 + 1) = ⟨4, 1, 1, 0⟩ := by
      show held m ⟨4, 1, 1, 0⟩ 1 _ (0 + 1) = _
      rw [C82_immediate]
      unfold paramsAt Frame.rd cut3
      simp [har, hm]
    rw [hh]
    have hr : Frame.rd (cut3 m ![1, 1, 1, v]) 0 = 1 := by unfold Frame.rd cut3; simp [har]
    rw [hr]; rfl
  have hx : ∀ x, first3 x = cut3 .peak x := by
    intro x; funext i
    unfold first3 cut3
    rw [dif_pos (lt_of_lt_of_le i.2 (by decide))]
  have hm : ∀ v : ℝ, morph.stream (MorphSt.new 4 1 1 0) (fun _ => ![1, 1, 1, v]) 0 0 = v / 2 := by
    intro v
    rw [morph_out]
    simp only [hx]
    have e1 : (MorphSt.new 4 1 1 0).filter = SvfSt.new .peak ⟨4, 1, 1, 0⟩ := rfl
    rw [e1, key .peak rfl v]
    simp only [SvfMode.coefs, svfPeak, svfCoefs, svfTick, htan]
    simp
    norm_num
  refine ⟨hm (-1), ?_, hm 1, ?_⟩
  · rw [key .lowpass rfl]
    simp only [SvfMode.coefs, svfLowpass, svfCoefs, svfTick, htan]; norm_num
  · rw [key .highpass rfl]
    simp only [SvfMode.coefs, svfHighpass, svfCoefs, svfTick, htan]; norm_num

theorem svfIn_exact (m : SvfMode) : ExactProcess (svfIn m) (fun _ => True) := by
  intro g s size inp out hsize _
  have h := (implements_ofTick SvfSt.reset (SvfSt.tick m) (svfIn m).ticks Eq (by rintro s m x rfl; exact ⟨rfl, rfl⟩)).process g s s size inp out hsize rfl
  exact h

/-- **C81.** Blocks equal ticks. -/
theorem C81_block : BlockEqualsTick morph := by
  refine blockEqualsTick_of_exact ?_
  intro g (s : MorphSt) size inp out hsize _
  have h := svfIn_exact .peak g s.filter size (fun c k => inp ⟨c.1, lt_of_lt_of_le c.2 (by decide)⟩ k) out hsize trivial
  have hfr : (Buf.frame (fun (c : Fin SvfMode.peak.arity) k => inp ⟨c.1, lt_of_lt_of_le c.2 (by decide)⟩ k)) = fun j => first3 (inp.frame j) := rfl
  rw [hfr] at h
  constructor
  · have hst : ∀ n, morph.ticks.st s inp.frame n = (⟨(svfIn .peak).ticks.st s.filter (fun j => first3 (inp.frame j)) n,
        if n > 0 then inp 3 (n - 1) else s.morph⟩ : MorphSt) := by
      intro n
      have h1 := morph_st s inp.frame n
      obtain ⟨a, ha⟩ : ∃ a : MorphSt, a = morph.ticks.st s inp.frame n := ⟨_, rfl⟩
      rw [← ha] at h1 ⊢
      have h2 : a.morph = if n > 0 then inp 3 (n - 1) else s.morph := by
        rw [ha]
        cases n with
        | zero => rfl
        | succ n => rfl
      rw [← h1, ← h2]
    rw [hst, ← h.1]
    rfl
  · intro k hk
    funext c
    have h2 := congrFun (h.2 k hk) c
    have e : (morph.process g s size inp out).2.frame k c =
        if k < 8 * simdItems size then ((((svfIn .peak).process g s.filter size (fun c k => inp ⟨c.1, lt_of_lt_of_le c.2 (by decide)⟩ k) out).2.frame k c
          + inp 0 k * inp 3 k) * 0.5) else (((svfIn .peak).process g s.filter size (fun c k => inp ⟨c.1, lt_of_lt_of_le c.2 (by decide)⟩ k) out).2.frame k c) := rfl
    rw [e, if_pos (by unfold simdItems; omega), h2]
    have e2 := morph_out s inp.frame k
    rw [Subsingleton.elim c 0]
    refine Eq.trans ?_ e2.symm
    show (_ + inp 0 k * inp 3 k) * 0.5 = (_ + inp 3 k * inp 0 k) / 2
    rw [show (0.5 : ℝ) = 1 / 2 by norm_num, mul_one_div, mul_comm (inp 0 k)]
    rfl

/-- **C81.** Reset restores the new filter. -/
theorem C81_reset (sr f q v : ℝ) : ResetFresh morph (MorphSt.new sr f q v) := by
  refine TickFresh.resetFresh ?_ (fun w cs hc => C81_block w cs hc _)
  intro s hs w
  have hT := (C82_reset .peak ⟨sr, f, q, 0⟩).tickFresh
  have hreach : Reached (svfIn .peak) (SvfSt.new .peak ⟨sr, f, q, 0⟩) ((s : MorphSt).filter : (svfIn .peak).σ) := by
    induction hs with
    | init => exact Reached.init
    | tick x _ ih => exact Reached.tick (first3 x) ih
    | reset _ ih => exact Reached.reset ih
  have h := hT _ hreach (fun j => first3 (w j))
  funext k c
  rw [Subsingleton.elim c 0]
  refine (morph_out (morph.reset s : MorphSt) w k).trans ((morph_out (MorphSt.new sr f q v) w k).trans ?_).symm
  have h2 := congrFun (congrFun h k) 0
  show ((svfIn .peak).stream (SvfSt.new .peak ⟨sr, f, q, 0⟩) (fun j => first3 (w j)) k 0 + _) / 2 =
    ((svfIn .peak).stream ((svfIn .peak).reset (s : MorphSt).filter) (fun j => first3 (w j)) k 0 + _) / 2
  rw [h2]

/-- The morphing filter with its parameter inputs held. -/
noncomputable def morphPinned (f q v : ℝ) : Node ℝ 1 1 :=
  .ofTick MorphSt (fun s => { s with filter := s.filter.reset }) (fun s x => s.tick ![x 0, f, q, v])

theorem first3_pinned (x f q v : ℝ) : first3 ![x, f, q, v] =
    (fun i => if i.1 = 0 then x else if i.1 = 1 then f else if i.1 = 2 then q else 0 : Frame ℝ SvfMode.peak.arity) := by
  funext i
  match i with
  | ⟨0, _⟩ => rfl
  | ⟨1, _⟩ => rfl
  | ⟨2, _⟩ => rfl
  | ⟨n + 3, h⟩ => exact absurd (show n + 3 < 3 from h) (by omega)

/-- **C81, partial.** With held inputs the frequency response is half the sum of the peak response and the morph value, which is what is reported when
the incoming signal has response one. Missing: other incoming responses (`C81_violation_response`). -/
theorem C81_response_partial (sr f q v : ℝ) (hf : 0 < f) (hsr : 2 * f < sr) (hq : 0 < q) (θ : ℝ) (s0 : MorphSt)
    (h0 : s0.filter.p.sr = sr ∧ s0.filter.p.cutoff = f ∧ s0.filter.p.q = q ∧ s0.morph = v) :
    HasResponse (morphPinned f q v) (fun s : MorphSt => s.filter.Consistent .peak ∧ s.filter.counter = 0 ∧ s.filter.period = 1 ∧ s.filter.p.sr = sr ∧ s.filter.p.gain = 0)
      θ (morphRoute s0 θ 1) := by
  have ht : 0 < Real.tan (Real.pi * f / sr) := C44_svf_cutoff hf hsr
  have hpk : HasResponse (svfNode (SvfMode.peak.coefs ⟨sr, f, q, 0⟩)) (fun _ => True) θ (peakResponse (Real.tan (Real.pi * f / sr)) q θ) :=
    C44_svf_peak ht hq θ
  obtain ⟨G, hG⟩ := C82_response .peak sr f q 0 0 (fun _ => rfl) θ _ hpk
  refine ⟨(G + v) * (1 / 2), fun s x A d hs hx => ?_⟩
  have h1 := hG (s : MorphSt).filter x A d hs hx
  have h2 := ((h1.add (hx.smul v)).smul (1 / 2))
  have hst : ∀ k, ((morphPinned f q v).ticks.st s x k : MorphSt).filter = (svfPinned .peak f q 0).ticks.st (s : MorphSt).filter x k := by
    intro k
    induction k with
    | zero => rfl
    | succ k ih =>
      have e : (morphPinned f q v).ticks.st s x (k + 1) = (MorphSt.tick ((morphPinned f q v).ticks.st s x k) ![x k 0, f, q, v]).1 := rfl
      rw [e]
      show (SvfSt.tick .peak ((morphPinned f q v).ticks.st s x k : MorphSt).filter (first3 ![x k 0, f, q, v])).1 = _
      rw [ih]
      rw [first3_pinned]; rfl
  have hout : ∀ k, (morphPinned f q v).ticks.out s x k 0 = 1 / 2 * ((svfPinned .peak f q 0).ticks.out (s : MorphSt).filter x k 0 + v * x k 0) := by
    intro k
    have e : (morphPinned f q v).ticks.out s x k 0 =
      ((SvfSt.tick .peak ((morphPinned f q v).ticks.st s x k : MorphSt).filter (first3 ![x k 0, f, q, v])).2 0 + v * x k 0) * 0.5 := rfl
    rw [e, hst]
    rw [first3_pinned, show (0.5 : ℝ) = 1 / 2 by norm_num, mul_comm _ (1 / 2 : ℝ)]; rfl
  have h3 := h2.congr_tail (y := fun k => (morphPinned f q v).ticks.out s x k 0) 0 (fun k _ => hout k)
  obtain ⟨h01, h02, h03, h04⟩ := h0
  unfold morphRoute
  rw [h01, h02, h03, h04]
  convert h3 using 1
  · push_cast
    norm_num
    ring
  · ring

/-- **C81, negative.** If the incoming signal has a response other than one, the reported response is not that of the output signal, which is the
incoming response times the response of the filter: the morph term is added without the factor. -/
theorem C81_violation_response (s : MorphSt) (θ : ℝ) (r : ℂ) (hr : r ≠ 1) (hm : s.morph ≠ 0) :
    morphRoute s θ r ≠ r * morphRoute s θ 1 := by
  intro h
  unfold morphRoute at h
  have h2 : ((s.morph : ℂ)) * (1 - r) = 0 := by linear_combination 2 * h
  rcases mul_eq_zero.1 h2 with h3 | h3
  · exact hm (by exact_mod_cast h3)
  · exact hr (by linear_combination -h3)

end Fundsp.Filter
