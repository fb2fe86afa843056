import Verif.Filter.Equalizer
import Verif.Filter.SvfInProps
import Verif.Core.ExprProps
import Verif.Math.MusicProps
import Mathlib.Algebra.BigOperators.Fin
import Mathlib.Algebra.Order.BigOperators.Ring.Finset
import Mathlib.Analysis.Normed.Field.Basic

/-! **C98**: the parametric equalizer. -/

noncomputable section
namespace Fundsp.Equalizer
open Fundsp Fundsp.Filter Fundsp.Setting

/-! ## Specification -/

/-- A band as the user thinks of it: its present parameters and its memory. -/
structure Band where
  p : SvfParams
  mem : ℝ × ℝ

/-- The bands in order, each acting with its present parameters on the output of the one before. -/
def cascade : List Band → ℝ → List Band × ℝ
  | [], x => ([], x)
  | b :: bs, x =>
    let r := svfTick (svfBell (Real.tan (Real.pi * b.p.cutoff / b.p.sr)) b.p.q √b.p.gain) b.mem x
    let q := cascade bs r.2
    (⟨b.p, r.1⟩ :: q.1, q.2)

/-- Parameters after a method call on the band. -/
def changed (p : SvfParams) : FixedSet → SvfParams
  | .center c => ⟨p.sr, c, p.q, p.gain⟩
  | .centerQ c r => ⟨p.sr, c, r, p.gain⟩
  | .centerQGain c r a => ⟨p.sr, c, r, a⟩
  | .q r => ⟨p.sr, p.cutoff, r, p.gain⟩
  | .gain a => ⟨p.sr, p.cutoff, p.q, a⟩
  | .sampleRate sr => ⟨sr, p.cutoff, p.q, p.gain⟩

/-- Parameters after a setting. -/
def received (p : SvfParams) : Par → SvfParams
  | .center c => ⟨p.sr, c, p.q, p.gain⟩
  | .centerQ c r => ⟨p.sr, c, r, p.gain⟩
  | .centerQGain c r a => ⟨p.sr, c, r, a⟩
  | .other => p

/-- The equalizer as documented: every call changes the parameters that it names in the band that it names, and nothing else. -/
def ideal (bs : List Band) : List Ev → Option (List Band × List ℝ)
  | [] => some (bs, [])
  | .band i f :: es => if i < bs.length then ideal (bs.mapIdx fun j b => if j = i then ⟨changed b.p f, b.mem⟩ else b) es else none
  | .set path p :: es => match path with
    | .index i :: _ => if i < bs.length then ideal (bs.mapIdx fun j b => if j = i then ⟨received b.p p, b.mem⟩ else b) es else none
    | _ => ideal bs es
  | .rate sr :: es => ideal (bs.map fun b => ⟨⟨sr, b.p.cutoff, b.p.q, b.p.gain⟩, b.mem⟩) es
  | .reset :: es => ideal (bs.map fun b => ⟨b.p, (0, 0)⟩) es
  | .tick x :: es => (ideal (cascade bs x).1 es).map fun r => (r.1, (cascade bs x).2 :: r.2)

/-- The gain alone is set on a band. -/
def Ev.loneGain : Ev → Prop
  | .band _ (.gain _) => True
  | _ => False

/-! ## Lemmas -/

/-- The coefficients are those of the parameters. -/
def Ok {n : Nat} (s : St n) : Prop := ∀ i, (s i).coefs = SvfMode.bell.coefs (s i).p

/-- What the user sees of the state. -/
def bands {m : Nat} (s : Fin m → FixedSt) : List Band := List.ofFn fun i => ⟨(s i).p, (s i).ic⟩

theorem bands_length {m : Nat} (s : Fin m → FixedSt) : (bands s).length = m := by simp [bands]

theorem bands_update {m : Nat} (s : Fin m → FixedSt) (i : Nat) (f : FixedSt → FixedSt) (g : SvfParams → SvfParams)
    (h : ∀ b, (f b).p = g b.p ∧ (f b).ic = b.ic) :
    bands (fun j => if j.1 = i then f (s j) else s j) = (bands s).mapIdx fun j b => if j = i then ⟨g b.p, b.mem⟩ else b := by
  apply List.ext_getElem
  · simp [bands]
  · intro k h1 h2
    simp only [bands, List.getElem_ofFn, List.getElem_mapIdx]
    split
    · rw [(h _).1, (h _).2]
    · rfl

theorem chain_cascade : ∀ (m : Nat) (s : Fin m → FixedSt), (∀ i, (s i).coefs = SvfMode.bell.coefs (s i).p) → ∀ x : ℝ,
    bands (chainTick fixedSvf m s (fun _ => x)).1 = (cascade (bands s) x).1 ∧
    (chainTick fixedSvf m s (fun _ => x)).2 = (fun _ => (cascade (bands s) x).2) ∧
    ∀ i, ((chainTick fixedSvf m s (fun _ => x)).1 i : FixedSt).coefs = SvfMode.bell.coefs ((chainTick fixedSvf m s (fun _ => x)).1 i : FixedSt).p := by
  intro m
  induction m with
  | zero => intro s _ x; exact ⟨rfl, rfl, fun i => i.elim0⟩
  | succ m ih =>
    intro s hs x
    have e0 : bands s = ⟨(s 0).p, (s 0).ic⟩ :: bands (fun k : Fin m => s k.succ) := by simp only [bands, List.ofFn_succ]
    have e1 : svfTick (svfBell (Real.tan (Real.pi * (s 0).p.cutoff / (s 0).p.sr)) (s 0).p.q √(s 0).p.gain) (s 0).ic x = svfTick (s 0).coefs (s 0).ic x := by
      rw [hs 0]; rfl
    obtain ⟨h1, h2, h3⟩ := ih (fun k => s k.succ) (fun k => hs k.succ) (svfTick (s 0).coefs (s 0).ic x).2
    have ht : chainTick fixedSvf (m + 1) s (fun _ => x) =
        (Fin.cases (motive := fun _ => FixedSt) { s 0 with ic := (svfTick (s 0).coefs (s 0).ic x).1 }
          (chainTick fixedSvf m (fun k => s k.succ) (fun _ => (svfTick (s 0).coefs (s 0).ic x).2)).1,
          (chainTick fixedSvf m (fun k => s k.succ) (fun _ => (svfTick (s 0).coefs (s 0).ic x).2)).2) := rfl
    rw [ht, e0]
    simp only [cascade, e1]
    refine ⟨?_, ?_, ?_⟩
    · simp only [bands, List.ofFn_succ, Fin.cases_zero, Fin.cases_succ]
      exact congrArg (List.cons _) h1
    · exact h2
    · intro i
      refine Fin.cases ?_ (fun k => ?_) i
      · exact hs 0
      · exact h3 k

/-! ## Control -/

/-- **C98, control.** Whatever sequence of calls is made, as long as the gain of a band is not set alone: the samples are those of the documented equalizer. The memory
of the filters goes on through every change, a change affects only the band it names, from the next sample on, and a missing band is an error in both.
Missing: `set_gain` (`C98_violation_gain`). -/
theorem C98_control_partial {n : Nat} (p : Nat → SvfParams) (es : List Ev) (he : ∀ e ∈ es, ¬ e.loneGain) :
    (run (make n p) es).map (fun r => (bands r.1, r.2)) = ideal ((List.range (n + 1)).map fun i => ⟨p i, (0, 0)⟩) es := by
  have key : ∀ (es : List Ev) (s : St n), Ok s → (∀ e ∈ es, ¬ e.loneGain) → (run s es).map (fun r => (bands r.1, r.2)) = ideal (bands s) es := by
    intro es
    induction es with
    | nil => intro s _ _; rfl
    | cons e es ih =>
      intro s hs he
      have hes : ∀ e ∈ es, ¬ e.loneGain := fun e h => he e (List.mem_cons_of_mem _ h)
      have upd : ∀ (i : Nat) (f : FixedSt → FixedSt) (g : SvfParams → SvfParams), (∀ b, (f b).p = g b.p ∧ (f b).ic = b.ic) →
          (∀ b, b.coefs = SvfMode.bell.coefs b.p → (f b).coefs = SvfMode.bell.coefs (f b).p) →
          (((update s i f).map (·, ([] : List ℝ))).bind fun r => (run r.1 es).map fun q => (q.1, r.2 ++ q.2)).map (fun r => (bands r.1, r.2)) =
            if i < (bands s).length then ideal ((bands s).mapIdx fun j b => if j = i then ⟨g b.p, b.mem⟩ else b) es else none := by
        intro i f g hf hc
        rw [bands_length]
        unfold update
        by_cases hi : i < n + 1
        · rw [if_pos hi, if_pos hi, ← bands_update s i f g hf, ← ih _ (fun j => ?_) hes]
          · simp only [Option.map_some, Option.bind_some, Option.map_map, List.nil_append]; rfl
          · show (if j.1 = i then f (s j) else s j).coefs = SvfMode.bell.coefs (if j.1 = i then f (s j) else s j).p
            split
            · exact hc _ (hs j)
            · exact hs j
        · rw [if_neg hi, if_neg hi]; rfl
      cases e with
      | band i f =>
        have hf : ¬ FixedSet.IsGain f := by
          intro h; cases f <;> first | exact he _ List.mem_cons_self trivial | exact h
        refine upd i _ (fun p => changed p f) (fun b => ?_) (fun b hb => ?_)
        · cases f <;> exact ⟨rfl, rfl⟩
        · cases f <;> first | rfl | exact absurd trivial hf
      | set path q =>
        cases path with
        | nil => exact (by rw [show run s (.set [] q :: es) = (run s es).map (fun r => (r.1, [] ++ r.2)) from rfl]; simpa [ideal] using ih s hs hes)
        | cons a path =>
          cases a with
          | index i =>
            refine upd i _ (fun p => received p q) (fun b => ?_) (fun b hb => ?_)
            · cases q <;> exact ⟨rfl, rfl⟩
            · cases q <;> first | rfl | exact hb
          | null => exact (by rw [show run s (.set (.null :: path) q :: es) = (run s es).map (fun r => (r.1, [] ++ r.2)) from rfl]; simpa [ideal] using ih s hs hes)
          | left => exact (by rw [show run s (.set (.left :: path) q :: es) = (run s es).map (fun r => (r.1, [] ++ r.2)) from rfl]; simpa [ideal] using ih s hs hes)
          | right => exact (by rw [show run s (.set (.right :: path) q :: es) = (run s es).map (fun r => (r.1, [] ++ r.2)) from rfl]; simpa [ideal] using ih s hs hes)
          | node k => exact (by rw [show run s (.set (.node k :: path) q :: es) = (run s es).map (fun r => (r.1, [] ++ r.2)) from rfl]; simpa [ideal] using ih s hs hes)
      | rate sr =>
        have := ih (fun j => FixedSt.set .bell (s j) (.sampleRate sr)) (fun j => rfl) hes
        have e : bands (fun j => FixedSt.set .bell (s j) (.sampleRate sr)) = (bands s).map fun b => ⟨⟨sr, b.p.cutoff, b.p.q, b.p.gain⟩, b.mem⟩ := by
          simp only [bands, List.map_ofFn]; rfl
        rw [show run s (.rate sr :: es) = (run (fun j => FixedSt.set .bell (s j) (.sampleRate sr)) es).map (fun r => (r.1, [] ++ r.2)) from rfl]
        simp only [ideal, ← e, ← this, List.nil_append]; simp
      | reset =>
        have := ih (fun j => { s j with ic := (0, 0) }) (fun j => hs j) hes
        have e : bands (fun j => ({ s j with ic := (0, 0) } : FixedSt)) = (bands s).map fun b => ⟨b.p, (0, 0)⟩ := by
          simp only [bands, List.map_ofFn]; rfl
        rw [show run s (.reset :: es) = (run (fun j => ({ s j with ic := (0, 0) } : FixedSt)) es).map (fun r => (r.1, [] ++ r.2)) from rfl]
        simp only [ideal, ← e, ← this, List.nil_append]; simp
      | tick x =>
        obtain ⟨h1, h2, h3⟩ := chain_cascade (n + 1) s hs x
        have := ih (chainTick fixedSvf (n + 1) s (fun _ => x)).1 h3 hes
        rw [show run s (.tick x :: es) = (run (chainTick fixedSvf (n + 1) s (fun _ => x)).1 es).map
          (fun r => (r.1, [(chainTick fixedSvf (n + 1) s (fun _ => x)).2 0] ++ r.2)) from rfl, h2]
        rw [h1] at this
        simp only [ideal, ← this, Option.map_map]; rfl
  have := key es (make n p) (fun i => rfl) he
  rw [this]
  congr 1
  apply List.ext_getElem
  · simp [bands]
  · intro k h1 h2
    simp only [bands, List.getElem_ofFn, List.getElem_map, List.getElem_range]
    rfl

/-- Two bands, one moved while sound is playing, and a call on a missing band. -/
example : (run (make 1 fun i => ⟨44100, 1000 + 1000 * i, 1, 2⟩) [.tick 1, .set [.index 1] (.centerQGain 500 2 3), .tick 2]).isSome = true ∧
    run (make 1 fun i => ⟨44100, 1000 + 1000 * i, 1, 2⟩) [.tick 1, .band 2 (.center 500)] = none := by
  constructor <;> simp [run, step, update]

/-- **C98, both ways to control a band.** A setting sent with the index of a band does what the method of the band does. -/
theorem C98_setting {n : Nat} (s : St n) (i : Nat) (c q g : ℝ) (es : List Ev) :
    run s (.set [.index i] (.centerQGain c q g) :: es) = run s (.band i (.centerQGain c q g) :: es) ∧
    run s (.set [.index i] (.centerQ c q) :: es) = run s (.band i (.centerQ c q) :: es) ∧
    run s (.set [.index i] (.center c) :: es) = run s (.band i (.center c) :: es) := ⟨rfl, rfl, rfl⟩

/-- **C98, the recipe.** Gain, center and Q set in the order of the README make the band with those parameters, whatever it was before. -/
theorem C98_recipe {n : Nat} (s : St n) (i : Nat) (c q g : ℝ) (es : List Ev) :
    run s (.band i (.gain g) :: .band i (.center c) :: .band i (.q q) :: es) = run s (.band i (.centerQGain c q g) :: es) := by
  have h : ∀ f : FixedSt → FixedSt, update s i f = if i < n + 1 then some (fun j => if j.1 = i then f (s j) else s j) else none := fun _ => rfl
  simp only [run, step, update]
  by_cases hi : i < n + 1
  · simp only [if_pos hi, Option.map_some, Option.bind_some, List.nil_append, Option.map_map]
    have e : (fun j : Fin (n + 1) => if j.1 = i then FixedSt.set .bell (if j.1 = i then FixedSt.set .bell (if j.1 = i then FixedSt.set .bell (s j) (.gain g) else s j) (.center c)
        else if j.1 = i then FixedSt.set .bell (s j) (.gain g) else s j) (.q q)
        else if j.1 = i then FixedSt.set .bell (if j.1 = i then FixedSt.set .bell (s j) (.gain g) else s j) (.center c)
        else if j.1 = i then FixedSt.set .bell (s j) (.gain g) else s j) = fun j => if j.1 = i then FixedSt.set .bell (s j) (.centerQGain c q g) else s j := by
      funext j
      by_cases hj : j.1 = i
      · simp only [if_pos hj]; rfl
      · simp only [if_neg hj]
    rw [e]
    rfl
  · simp only [if_neg hi, Option.map_none, Option.bind_none]

/-! ## Flat -/

theorem bell_unity (t q x : ℝ) (ic : ℝ × ℝ) : (svfTick (svfBell t q √1) ic x).2 = x := by
  simp [svfTick, svfBell, svfCoefs]

/-- The signal `v` through a band. -/
def through (v : Nat → Frame ℝ 1) (t : FixedSt) : Nat → Frame ℝ 1 := fixedSvf.stream t v

/-- The equalizer passes everything: bands whose coefficients are those of a gain of 0 dB. -/
theorem flat_of {n : Nat} (s : St n) (h : ∀ i, ∃ t q, (s i).coefs = svfBell t q √1) (w : Nat → Frame ℝ 1) : (equalizer n).stream s w = w := by
  have e : (equalizer n).stream s w = (List.ofFn s).foldl through w := Expr.C91_pipe n fixedSvf s w
  rw [e]
  have key : ∀ l : List FixedSt, (∀ b ∈ l, ∃ t q, b.coefs = svfBell t q √1) → l.foldl through w = w := by
    intro l
    induction l with
    | nil => intro _; rfl
    | cons b l ih =>
      intro hb
      rw [List.foldl_cons]
      have e1 : through w b = w := by
        obtain ⟨t, q, hc⟩ := hb b List.mem_cons_self
        funext k c
        refine (congrFun (C82_fixed_output b w k) c).trans ?_
        rw [hc]
        obtain rfl : c = 0 := Subsingleton.elim _ _
        exact bell_unity t q _ _
      rw [e1]
      exact ih fun b h => hb b (List.mem_cons_of_mem _ h)
  exact key _ fun b hb => by obtain ⟨i, rfl⟩ := List.mem_ofFn.1 hb; exact h i

/-- **C98, 0 dB.** With the gains of all bands at 0 dB the equalizer passes every signal unchanged, whatever the other parameters and the memory of the filters. -/
theorem C98_flat {n : Nat} (s : St n) (hs : Ok s) (h : ∀ i, (s i).p.gain = Math.dbAmp 0) (w : Nat → Frame ℝ 1) : (equalizer n).stream s w = w := by
  refine flat_of s (fun i => ⟨Real.tan (Real.pi * (s i).p.cutoff / (s i).p.sr), (s i).p.q, ?_⟩) w
  have : (s i).p.gain = 1 := (h i).trans Math.C89_decibels.1
  rw [hs i, ← this]
  rfl

/-- The equalizer of the README. -/
example (w : Nat → Frame ℝ 1) : (equalizer 11).stream (make 11 fun i => ⟨44100, 1000 + 1000 * i, 1, Math.dbAmp 0⟩) w = w :=
  C98_flat _ (fun _ => rfl) (fun _ => rfl) w

/-! ## Response -/

/-- `polar θ = z`: the response of a bell as a fraction of two complex numbers with the same real part. -/
theorem bell_form {g q a θ : ℝ} (hg : 0 < g) (hq : 0 < q) (ha : 0 < a) :
    ∃ p w : ℝ, p = 2 * Real.cos θ - 2 + g * g * (2 * Real.cos θ + 2) ∧ w = 2 * g / q * Real.sin θ ∧ 0 < a * a * (p * p) + w * w ∧
      bellResponse g q a θ = (a * p + a * a * w * Complex.I) / (a * p + w * Complex.I) := by
  refine ⟨_, _, rfl, rfl, ?_, ?_⟩
  · by_cases hs : Real.sin θ = 0
    · have hc : Real.cos θ * Real.cos θ = 1 := by nlinarith [Real.sin_sq_add_cos_sq θ]
      have : Real.cos θ = 1 ∨ Real.cos θ = -1 := by
        have : (Real.cos θ - 1) * (Real.cos θ + 1) = 0 := by nlinarith
        rcases mul_eq_zero.1 this with h | h
        · left; linarith
        · right; linarith
      have hp : 2 * Real.cos θ - 2 + g * g * (2 * Real.cos θ + 2) ≠ 0 := by
        rcases this with h | h <;> rw [h] <;> nlinarith [mul_pos hg hg]
      have := mul_pos (mul_pos ha ha) (mul_self_pos.2 hp)
      nlinarith [mul_self_nonneg (2 * g / q * Real.sin θ)]
    · have : 2 * g / q * Real.sin θ ≠ 0 := mul_ne_zero (by positivity) hs
      have := mul_self_pos.2 this
      have := mul_nonneg (mul_nonneg ha.le ha.le) (mul_self_nonneg (2 * Real.cos θ - 2 + g * g * (2 * Real.cos θ + 2)))
      linarith
  · have hz : polar θ * polar (-θ) = 1 := by rw [polar_neg, mul_inv_cancel₀ (polar_ne θ)]
    have c2 : (2 * Real.cos θ : ℂ) = polar θ + polar (-θ) := by
      have h1 := polar_neg_eq θ
      have h2 := polar_neg_eq (-θ)
      rw [neg_neg, Real.cos_neg, Real.sin_neg] at h2
      rw [h1, h2]; push_cast; ring
    have s2 : (2 * Real.sin θ * Complex.I : ℂ) = polar θ - polar (-θ) := by
      have h1 := polar_neg_eq θ
      have h2 := polar_neg_eq (-θ)
      rw [neg_neg, Real.cos_neg, Real.sin_neg] at h2
      rw [h1, h2]; push_cast; ring
    have ha' : (a : ℂ) ≠ 0 := by exact_mod_cast ha.ne'
    have hq' : (q : ℂ) ≠ 0 := by exact_mod_cast hq.ne'
    have hzne := polar_ne θ
    have eP : (polar θ - 1) * (polar θ - 1) + g * g * (1 + polar θ) * (1 + polar θ) =
        polar θ * ((2 * Real.cos θ : ℂ) - 2 + g * g * ((2 * Real.cos θ : ℂ) + 2)) := by
      rw [c2]
      linear_combination (-(1 + g * g) : ℂ) * hz
    have eQ : g * (1 / q) * (polar θ * polar θ - 1) = polar θ * ((2 * Real.sin θ * Complex.I : ℂ) * (g / q)) := by
      rw [s2]
      field_simp
      linear_combination (g : ℂ) * hz
    have num : (g * (1 / q) * (polar θ * polar θ - 1) + a * (g * (1 + polar θ) * ((a * a - 1) * (1 / q) / a * (polar θ - 1))
        + ((polar θ - 1) * (polar θ - 1) + g * g * (1 + polar θ) * (1 + polar θ))) : ℂ) =
        polar θ * (a * ((2 * Real.cos θ : ℂ) - 2 + g * g * ((2 * Real.cos θ : ℂ) + 2)) + a * a * ((2 * Real.sin θ * Complex.I : ℂ) * (g / q))) := by
      have e3 : a * (g * (1 + polar θ) * ((a * a - 1) * (1 / q) / a * (polar θ - 1))) = ((a * a - 1) : ℂ) * (g * (1 / q) * (polar θ * polar θ - 1)) := by
        field_simp; ring
      rw [mul_add (a : ℂ) (g * (1 + polar θ) * _), e3, eP, eQ]; ring
    have den : (g * (1 / q) * (polar θ * polar θ - 1) + a * ((polar θ - 1) * (polar θ - 1) + g * g * (polar θ + 1) * (polar θ + 1)) : ℂ) =
        polar θ * (a * ((2 * Real.cos θ : ℂ) - 2 + g * g * ((2 * Real.cos θ : ℂ) + 2)) + (2 * Real.sin θ * Complex.I : ℂ) * (g / q)) := by
      rw [show (polar θ - 1) * (polar θ - 1) + g * g * (polar θ + 1) * (polar θ + 1) = (polar θ - 1) * (polar θ - 1) + g * g * (1 + polar θ) * (1 + polar θ) by ring, eP, eQ]
      ring
    unfold bellResponse
    simp only []
    push_cast
    rw [num, den, mul_div_mul_left _ _ hzne]
    congr 1 <;> (push_cast; ring)

/-- The square of the magnitude of the response of a bell. -/
theorem bell_normSq {g q a θ : ℝ} (hg : 0 < g) (hq : 0 < q) (ha : 0 < a) :
    ∃ u v : ℝ, 0 ≤ u ∧ 0 ≤ v ∧ 0 < u + v ∧ ‖bellResponse g q a θ‖ ^ 2 = (u + (a * a) ^ 2 * v) / (u + v) := by
  obtain ⟨p, w, -, -, h, e⟩ := bell_form (θ := θ) hg hq ha
  refine ⟨a * a * (p * p), w * w, mul_nonneg (mul_self_nonneg a) (mul_self_nonneg p), mul_self_nonneg w, h, ?_⟩
  have n1 : ‖(a * p + a * a * w * Complex.I : ℂ)‖ ^ 2 = a * a * (p * p) + (a * a) ^ 2 * (w * w) := by
    rw [← Complex.normSq_eq_norm_sq, show (a * p + a * a * w * Complex.I : ℂ) = ((a * p : ℝ) : ℂ) + ((a * a * w : ℝ) : ℂ) * Complex.I by push_cast; ring,
      Complex.normSq_add_mul_I]
    ring
  have n2 : ‖(a * p + w * Complex.I : ℂ)‖ ^ 2 = a * a * (p * p) + w * w := by
    rw [← Complex.normSq_eq_norm_sq, show (a * p + w * Complex.I : ℂ) = ((a * p : ℝ) : ℂ) + ((w : ℝ) : ℂ) * Complex.I by push_cast; ring,
      Complex.normSq_add_mul_I]
    ring
  rw [e, norm_div, div_pow, n1, n2]

theorem tan_pos_of_valid {p : SvfParams} (h : p.Valid) : 0 < Real.tan (Real.pi * p.cutoff / p.sr) := by
  obtain ⟨h1, h2, -, -⟩ := h
  have hs : 0 < p.sr := by linarith
  refine Real.tan_pos_of_pos_of_lt_pi_div_two (by positivity) ?_
  rw [div_lt_div_iff₀ hs (by norm_num)]
  nlinarith [Real.pi_pos]

theorem response_prod {n : Nat} (s : St n) (f : ℝ) : response s f = ∏ i, bandResponse (s i).p f := by
  unfold response
  have : ∀ (l : List FixedSt) (z : ℂ), l.foldl (fun r b => r * bandResponse b.p f) z = z * (l.map fun b => bandResponse b.p f).prod := by
    intro l
    induction l with
    | nil => intro z; simp
    | cons b l ih => intro z; rw [List.foldl_cons, ih, List.map_cons, List.prod_cons, mul_assoc]
  rw [this, one_mul, List.map_ofFn, List.prod_ofFn]
  rfl

/-- **C98, the reported response is the response.** For an equalizer at sample rate `sr` whose parameters are in range: the amplitude and phase of a sinusoid at any
frequency are changed by exactly what `response` reports, and the reported response is the product of those of the bands. -/
theorem C98_response {n : Nat} (s : St n) (hs : Ok s) (sr : ℝ) (hr : ∀ i, (s i).p.sr = sr) (hv : ∀ i, (s i).p.Valid) (f : ℝ) :
    HasResponse (equalizer n) (fun t : St n => ∀ i, (t i).coefs = (s i).coefs) (f * (2 * Real.pi) / sr) (response s f) ∧
    response s f = ∏ i, bandResponse (s i).p f := by
  refine ⟨?_, response_prod s f⟩
  obtain ⟨θ, hθ⟩ : ∃ θ, θ = f * (2 * Real.pi) / sr := ⟨_, rfl⟩
  rw [← hθ]
  have hb : ∀ i, HasResponse (svfNode (s i).coefs) (fun _ => True) θ (bandResponse (s i).p f) := by
    intro i
    rw [hs i, hθ, ← hr i]
    exact C44_svf_bell (tan_pos_of_valid (hv i)) (hv i).2.2.1 _ (Real.sqrt_pos.2 (hv i).2.2.2)
  have key : ∀ (l : List (SvfCoefs ℝ × ℂ)), (∀ c ∈ l, HasResponse (svfNode c.1) (fun _ => True) θ c.2) →
      ∃ G : ℝ, ∀ (ts : List FixedSt) (x : Nat → Frame ℝ 1) (A : ℂ) (d : ℝ), ts.map (·.coefs) = l.map (·.1) →
        AsympExp (polar θ) A d (fun k => x k 0) →
        AsympExp (polar θ) (A * (l.map (·.2)).prod) (d * G) (fun k => (ts.foldl through x) k 0) := by
    intro l
    induction l with
    | nil =>
      intro _
      refine ⟨1, fun ts x A d hts hx => ?_⟩
      cases ts with
      | nil => simpa [List.foldl_nil] using hx
      | cons => simp at hts
    | cons c l ih =>
      intro hl
      obtain ⟨G, hG⟩ := ih fun c h => hl c (List.mem_cons_of_mem _ h)
      obtain ⟨G0, hG0⟩ := hl c List.mem_cons_self
      refine ⟨G0 * G, fun ts x A d hts hx => ?_⟩
      cases ts with
      | nil => simp at hts
      | cons t ts =>
        simp only [List.map_cons, List.cons.injEq] at hts
        have h0 := hG0 t.ic x A d trivial hx
        have h1 : AsympExp (polar θ) (A * c.2) (d * G0) (fun k => fixedSvf.stream t x k 0) := by
          refine Eq.mp (congrArg (AsympExp (polar θ) (A * c.2) (d * G0)) ?_) h0
          funext k
          rw [← hts.1]
          exact (congrFun (C82_fixed_output t x k) 0).symm
        have := hG ts (fixedSvf.stream t x) (A * c.2) (d * G0) hts.2 h1
        rw [List.foldl_cons, List.map_cons, List.prod_cons, ← mul_assoc, ← mul_assoc]
        exact this
  obtain ⟨G, hG⟩ := key (List.ofFn fun i => ((s i).coefs, bandResponse (s i).p f)) (fun c hc => by
    obtain ⟨i, rfl⟩ := List.mem_ofFn.1 hc; exact hb i)
  refine ⟨G, fun (t : Fin (n + 1) → FixedSt) x A d ht hx => ?_⟩
  have ht' : (List.ofFn (n := n + 1) (α := FixedSt) t).map (·.coefs) = (List.ofFn fun i => ((s i).coefs, bandResponse (s i).p f)).map (·.1) := by
    rw [List.map_ofFn, List.map_ofFn]; exact congrArg List.ofFn (funext ht)
  have := hG (List.ofFn (n := n + 1) (α := FixedSt) t) x A d ht' hx
  rw [List.map_ofFn, List.prod_ofFn] at this
  rw [response_prod]
  refine Eq.mp (congrArg (AsympExp (polar θ) _ (d * G)) ?_) this
  funext k
  exact (congrFun (congrFun (Expr.C91_pipe n fixedSvf t x) k) 0).symm

theorem ok_run {n : Nat} : ∀ (es : List Ev) (s t : St n) (ys : List ℝ), Ok s → (∀ e ∈ es, ¬ e.loneGain) → run s es = some (t, ys) → Ok t := by
  intro es
  induction es with
  | nil => intro s t ys hs _ h; cases h; exact hs
  | cons e es ih =>
    intro s t ys hs he h
    have h' : ((step s e).bind fun r => (run r.1 es).map fun q => (q.1, r.2 ++ q.2)) = some (t, ys) := h
    obtain ⟨r, hr, h1⟩ := Option.bind_eq_some_iff.1 h'
    obtain ⟨q, hq, h2⟩ := Option.map_eq_some_iff.1 h1
    cases h2
    refine ih r.1 q.1 q.2 ?_ (fun e h => he e (List.mem_cons_of_mem _ h)) hq
    have upd : ∀ (i : Nat) (f : FixedSt → FixedSt), (∀ b, b.coefs = SvfMode.bell.coefs b.p → (f b).coefs = SvfMode.bell.coefs (f b).p) →
        (update s i f).map (·, ([] : List ℝ)) = some r → Ok r.1 := by
      intro i f hf hu
      unfold update at hu
      split at hu
      · cases hu
        intro j
        show (if j.1 = i then f (s j) else s j).coefs = SvfMode.bell.coefs (if j.1 = i then f (s j) else s j).p
        split
        · exact hf _ (hs j)
        · exact hs j
      · cases hu
    cases e with
    | band i f =>
      refine upd i _ (fun b _ => ?_) hr
      cases f <;> first | rfl | exact absurd trivial (he _ List.mem_cons_self)
    | set path p =>
      cases path with
      | nil => cases hr; exact hs
      | cons a path =>
        cases a with
        | index i => exact upd i _ (fun b hb => by cases p <;> first | rfl | exact hb) hr
        | _ => cases hr; exact hs
    | rate sr => cases hr; exact fun j => rfl
    | reset => cases hr; exact fun j => hs j
    | tick x => cases hr; exact (chain_cascade (n + 1) s hs x).2.2

/-- **C98, the reported response is the response, at all times.** After any calls that do not set the gain of a band alone, at any moment with parameters in range and
all bands at one sample rate: the amplitude and phase of a sinusoid are changed from then on by exactly what `response` reports. -/
theorem C98_reported_partial {n : Nat} (p : Nat → SvfParams) (es : List Ev) (he : ∀ e ∈ es, ¬ e.loneGain) (s : St n) (ys : List ℝ)
    (h : run (make n p) es = some (s, ys)) (sr : ℝ) (hr : ∀ i, (s i).p.sr = sr) (hv : ∀ i, (s i).p.Valid) (f : ℝ) :
    HasResponse (equalizer n) (fun t : St n => ∀ i, (t i).coefs = (s i).coefs) (f * (2 * Real.pi) / sr) (response s f) :=
  (C98_response s (ok_run es _ s ys (fun _ => rfl) he h) sr hr hv f).1

example : HasResponse (equalizer 11) (fun t : St 11 => ∀ i, (t i).coefs = (make 11 (fun i => ⟨44100, 1000 + 1000 * i, 1, 2⟩) i).coefs) (440 * (2 * Real.pi) / 44100)
    (response (make 11 fun i => ⟨44100, 1000 + 1000 * i, 1, 2⟩) 440) := by
  refine C98_reported_partial (fun i => ⟨44100, 1000 + 1000 * i, 1, 2⟩) [] (by simp) _ [] rfl 44100 (fun _ => rfl) (fun i => ?_) 440
  have h1 : (i.1 : ℝ) ≤ 11 := by exact_mod_cast Nat.lt_succ_iff.1 i.2
  have h0 : (0 : ℝ) ≤ i.1 := Nat.cast_nonneg _
  refine ⟨?_, ?_, ?_, ?_⟩ <;> simp only [make, FixedSt.new]
  · linarith
  · linarith
  · norm_num
  · norm_num

/-- **C98, how much a band does.** At every frequency a band changes the level by a factor between 1 and its gain; at its center by exactly its gain, without phase shift;
at zero frequency and at the Nyquist frequency not at all. -/
theorem C98_band (p : SvfParams) (hv : p.Valid) :
    (∀ f, min 1 p.gain ≤ ‖bandResponse p f‖ ∧ ‖bandResponse p f‖ ≤ max 1 p.gain) ∧
    bandResponse p p.cutoff = p.gain ∧ bandResponse p 0 = 1 ∧ bandResponse p (p.sr / 2) = 1 := by
  have ht := tan_pos_of_valid hv
  obtain ⟨h1, h2, h3, h4⟩ := hv
  have ha : 0 < √p.gain := Real.sqrt_pos.2 h4
  have haa : √p.gain * √p.gain = p.gain := Real.mul_self_sqrt h4.le
  have hs : 0 < p.sr := by linarith
  refine ⟨fun f => ?_, ?_, ?_, ?_⟩
  · obtain ⟨u, v, hu, hv, huv, e⟩ := bell_normSq (θ := f * (2 * Real.pi) / p.sr) ht h3 ha
    rw [haa] at e
    have hn : 0 ≤ ‖bandResponse p f‖ := norm_nonneg _
    have e' : ‖bandResponse p f‖ ^ 2 = (u + p.gain ^ 2 * v) / (u + v) := e
    constructor
    · refine le_of_sq_le_sq ?_ hn
      rw [e', le_div_iff₀ huv]
      have m1 : min 1 p.gain ≤ 1 := min_le_left _ _
      have m2 : min 1 p.gain ≤ p.gain := min_le_right _ _
      have m0 : 0 < min 1 p.gain := lt_min one_pos h4
      have q1 : (min 1 p.gain) ^ 2 ≤ 1 := by nlinarith
      have q2 : (min 1 p.gain) ^ 2 ≤ p.gain ^ 2 := by nlinarith
      nlinarith [mul_le_mul_of_nonneg_right q1 hu, mul_le_mul_of_nonneg_right q2 hv]
    · refine le_of_sq_le_sq ?_ (le_trans zero_le_one (le_max_left _ _))
      rw [e', div_le_iff₀ huv]
      have m1 : 1 ≤ max 1 p.gain := le_max_left _ _
      have m2 : p.gain ≤ max 1 p.gain := le_max_right _ _
      have q1 : 1 ≤ (max 1 p.gain) ^ 2 := by nlinarith
      have q2 : p.gain ^ 2 ≤ (max 1 p.gain) ^ 2 := by nlinarith
      nlinarith [mul_le_mul_of_nonneg_right q1 hu, mul_le_mul_of_nonneg_right q2 hv]
  · obtain ⟨x, w, hx, -, hpos, e⟩ := bell_form (θ := p.cutoff * (2 * Real.pi) / p.sr) ht h3 ha
    have e' : bandResponse p p.cutoff = _ := e
    have hx0 : x = 0 := by
      rw [hx, show p.cutoff * (2 * Real.pi) / p.sr = 2 * (Real.pi * p.cutoff / p.sr) by ring, Real.cos_two_mul, Real.tan_eq_sin_div_cos]
      have hc : Real.cos (Real.pi * p.cutoff / p.sr) ≠ 0 := by
        intro hc; rw [Real.tan_eq_sin_div_cos, hc, div_zero] at ht; exact lt_irrefl _ ht
      field_simp
      nlinarith [Real.sin_sq_add_cos_sq (Real.pi * p.cutoff / p.sr)]
    rw [e', hx0]
    have hw : w ≠ 0 := by
      rintro rfl
      rw [hx0] at hpos
      simp at hpos
    have hw' : (w : ℂ) ≠ 0 := by exact_mod_cast hw
    have hI := Complex.I_ne_zero
    rw [show ((p.gain : ℝ) : ℂ) = (√p.gain : ℂ) * (√p.gain : ℂ) by rw [← Complex.ofReal_mul, haa]]
    simp only [Complex.ofReal_zero, mul_zero, zero_add]
    field_simp
  · obtain ⟨x, w, hx, hw, hpos, e⟩ := bell_form (θ := 0 * (2 * Real.pi) / p.sr) ht h3 ha
    have e' : bandResponse p 0 = _ := e
    have hw0 : w = 0 := by rw [hw]; simp
    rw [e', hw0]
    rw [hw0] at hpos
    have hx' : x ≠ 0 := by rintro rfl; simp at hpos
    have : ((√p.gain : ℂ) * (x : ℂ)) ≠ 0 := by rw [← Complex.ofReal_mul]; exact_mod_cast mul_ne_zero ha.ne' hx'
    simp only [Complex.ofReal_zero, mul_zero, zero_mul, add_zero]
    exact div_self this
  · obtain ⟨x, w, hx, hw, hpos, e⟩ := bell_form (θ := p.sr / 2 * (2 * Real.pi) / p.sr) ht h3 ha
    have e' : bandResponse p (p.sr / 2) = _ := e
    have hw0 : w = 0 := by rw [hw, show p.sr / 2 * (2 * Real.pi) / p.sr = Real.pi by field_simp]; simp
    rw [e', hw0]
    rw [hw0] at hpos
    have hx' : x ≠ 0 := by rintro rfl; simp at hpos
    have : ((√p.gain : ℂ) * (x : ℂ)) ≠ 0 := by rw [← Complex.ofReal_mul]; exact_mod_cast mul_ne_zero ha.ne' hx'
    simp only [Complex.ofReal_zero, mul_zero, zero_mul, add_zero]
    exact div_self this

/-- **C98, how much the equalizer does.** The level at any frequency is changed by a factor between the product of the cuts and the product of the boosts. If all bands but
one are at 0 dB, then `response_db` reports at the center of that band the decibels to which it was set. -/
theorem C98_gain {n : Nat} (s : St n) (hv : ∀ i, (s i).p.Valid) :
    (∀ f, (∏ i, min 1 (s i).p.gain) ≤ ‖response s f‖ ∧ ‖response s f‖ ≤ ∏ i, max 1 (s i).p.gain) ∧
    (∀ j db, (s j).p.gain = Math.dbAmp db → (∀ i, i ≠ j → (s i).p.gain = 1) → responseDb s (s j).p.cutoff = db) := by
  constructor
  · intro f
    rw [response_prod, norm_prod]
    constructor
    · refine Finset.prod_le_prod (fun i _ => le_of_lt (lt_min one_pos (hv i).2.2.2)) (fun i _ => ((C98_band _ (hv i)).1 f).1)
    · refine Finset.prod_le_prod (fun i _ => norm_nonneg _) (fun i _ => ((C98_band _ (hv i)).1 f).2)
  · intro j db hj ho
    have e : ∏ i, ‖bandResponse (s i).p (s j).p.cutoff‖ = ‖bandResponse (s j).p (s j).p.cutoff‖ := by
      refine Finset.prod_eq_single j (fun i _ hi => ?_) (fun h => absurd (Finset.mem_univ j) h)
      have := (C98_band _ (hv i)).1 (s j).p.cutoff
      rw [ho i hi, min_self, max_self] at this
      exact le_antisymm this.2 this.1
    unfold responseDb
    rw [response_prod, norm_prod, e, (C98_band _ (hv j)).2.1, Complex.norm_real, Real.norm_of_nonneg (hv j).2.2.2.le, hj]
    exact Math.C89_decibels.2.2.1 db

/-- **C98, worked example.** The README's equalizer after the README's calls on band 0: 10 dB at 500 Hz. -/
theorem C98_example : ∃ s : St 11, run (make 11 fun i => ⟨44100, 1000 + 1000 * i, 1, Math.dbAmp 0⟩)
      [.band 0 (.gain (Math.dbAmp 10)), .band 0 (.center 500), .band 0 (.q 2)] = some (s, []) ∧ responseDb s 500 = 10 := by
  have h := C98_recipe (make 11 fun i => ⟨44100, 1000 + 1000 * i, 1, Math.dbAmp 0⟩) 0 500 2 (Math.dbAmp 10) []
  refine ⟨fun j => if j.1 = 0 then FixedSt.set .bell (make 11 (fun i => ⟨44100, 1000 + 1000 * i, 1, Math.dbAmp 0⟩) j) (.centerQGain 500 2 (Math.dbAmp 10))
    else make 11 (fun i => ⟨44100, 1000 + 1000 * i, 1, Math.dbAmp 0⟩) j, h.trans ?_, ?_⟩
  · simp [run, step, update]
  · have d0 : Math.dbAmp 0 = 1 := Math.C89_decibels.1
    have d10 : 0 < Math.dbAmp 10 := by unfold Math.dbAmp; positivity
    refine (C98_gain _ (fun i => ?_)).2 0 10 rfl (fun i hi => ?_)
    · by_cases hi : i.1 = 0
      · simp only [if_pos hi]
        exact ⟨by norm_num [FixedSt.set], by norm_num [FixedSt.set, make, FixedSt.new], by norm_num [FixedSt.set], d10⟩
      · simp only [if_neg hi]
        have h1 : (i.1 : ℝ) ≤ 11 := by exact_mod_cast Nat.lt_succ_iff.1 i.2
        have h0 : (0 : ℝ) ≤ i.1 := Nat.cast_nonneg _
        refine ⟨?_, ?_, ?_, ?_⟩ <;> simp only [make, FixedSt.new]
        · linarith
        · linarith
        · norm_num
        · rw [d0]; norm_num
    · have : i.1 ≠ 0 := fun h => hi (Fin.ext h)
      simp only [if_neg this]
      exact d0

/-- **C98 fails when the gain is set last.** The same three calls in another order: center, Q, then gain. `response_db` reports 10 dB at 500 Hz, while the equalizer still
passes every signal unchanged. -/
theorem C98_violation_gain : ∃ s : St 11, run (make 11 fun i => ⟨44100, 1000 + 1000 * i, 1, Math.dbAmp 0⟩)
      [.band 0 (.center 500), .band 0 (.q 2), .band 0 (.gain (Math.dbAmp 10))] = some (s, []) ∧
    responseDb s 500 = 10 ∧ ∀ w, (equalizer 11).stream s w = w := by
  have d0 : Math.dbAmp 0 = 1 := Math.C89_decibels.1
  have d10 : 0 < Math.dbAmp 10 := by unfold Math.dbAmp; positivity
  refine ⟨fun j => if j.1 = 0 then ⟨⟨44100, 500, 2, Math.dbAmp 10⟩, SvfMode.bell.coefs ⟨44100, 500, 2, Math.dbAmp 0⟩, (0, 0)⟩
    else make 11 (fun i => ⟨44100, 1000 + 1000 * i, 1, Math.dbAmp 0⟩) j, ?_, ?_, ?_⟩
  · simp only [run, step, update, show (0 : Nat) < 11 + 1 by norm_num, if_true, Option.map_some, Option.bind_some, List.nil_append, Option.some.injEq, Prod.mk.injEq,
      and_true]
    funext j
    by_cases hj : j.1 = 0
    · simp only [if_pos hj]; rfl
    · simp only [if_neg hj]
  · refine (C98_gain _ (fun i => ?_)).2 0 10 rfl (fun i hi => ?_)
    · by_cases hi : i.1 = 0
      · simp only [if_pos hi]
        exact ⟨by norm_num, by norm_num, by norm_num, d10⟩
      · simp only [if_neg hi]
        have h1 : (i.1 : ℝ) ≤ 11 := by exact_mod_cast Nat.lt_succ_iff.1 i.2
        have h0 : (0 : ℝ) ≤ i.1 := Nat.cast_nonneg _
        refine ⟨?_, ?_, ?_, ?_⟩ <;> simp only [make, FixedSt.new]
        · linarith
        · linarith
        · norm_num
        · rw [d0]; norm_num
    · have : i.1 ≠ 0 := fun h => hi (Fin.ext h)
      simp only [if_neg this]
      exact d0
  · intro w
    refine flat_of _ (fun i => ?_) w
    by_cases hi : i.1 = 0
    · simp only [if_pos hi]
      exact ⟨_, _, by rw [d0]; rfl⟩
    · simp only [if_neg hi]
      exact ⟨_, _, by simp only [make, FixedSt.new, d0]; rfl⟩

end Fundsp.Equalizer
