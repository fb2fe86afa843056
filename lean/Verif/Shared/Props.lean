import Verif.Shared.Model
import Mathlib.Tactic.Ring
import Mathlib.Tactic.Linarith
import Mathlib.Tactic.Positivity
import Mathlib.Tactic.FieldSimp
import Mathlib.Tactic.Push
import Mathlib.Data.Int.ModEq
import Mathlib.Algebra.Order.Floor.Ring
import Mathlib.Algebra.Order.Floor.Semiring
import Mathlib.Algebra.Order.Archimedean.Basic

/-! C28 (shared variables, timers), C67 (atomic tables), C66 (sample-and-hold). -/

namespace Fundsp.Shared

open Fundsp.Math

/-! ## C28 -/

/-- Accesses to one variable by any number of threads: atomic accesses are totally ordered per location. -/
inductive VEv where
  | write (v : F32)
  | read
  | tick
  | block (size : Nat) (old : Buf F32 1)

/-- Observation of each event: the samples produced. -/
def vstep (c : Cell) : VEv → Cell × List F32
  | .write v => (setValue c v, [])
  | .read => (c, [value c])
  | .tick => (c, [varTick c])
  | .block size old => (c, (List.range size).map (varProcess c size old 0))

def vrun (c : Cell) : List VEv → Cell × List (List F32)
  | [] => (c, [])
  | e :: es => ((vrun (vstep c e).1 es).1, (vstep c e).2 :: (vrun (vstep c e).1 es).2)

/-- Specification: the last value written among the first events, else the initial one. -/
def lastWrite (init : F32) (es : List VEv) : F32 :=
  (es.filterMap (fun e => match e with | .write v => some v | _ => none)).getLast?.getD init

/-- Number of samples an event asks for. -/
def VEv.samples : VEv → Nat
  | .write _ => 0
  | .read => 1
  | .tick => 1
  | .block size _ => size

theorem lt_items {k size : Nat} (h : k < size) : k < 8 * simdItems size := by
  simp only [simdItems, Nat.shiftRight_eq_div_pow]; omega

theorem lastWrite_cons (init : F32) (e : VEv) (es : List VEv) (c : Cell) (h : c.bits = init) :
    lastWrite init (e :: es) = lastWrite (vstep c e).1.bits es := by
  cases e with
  | write v =>
    simp only [lastWrite, List.filterMap_cons, vstep, setValue]
    cases List.filterMap _ es with
    | nil => rfl
    | cons a l => rw [List.getLast?_cons]; rfl
  | read => simp [lastWrite, vstep, h]
  | tick => simp [lastWrite, vstep, h]
  | block size old => simp [lastWrite, vstep, h]

/-- **C28** After any history of accesses, the next read, tick or block shows in every sample exactly the bit pattern last stored. -/
theorem C28_var (init : F32) (es : List VEv) (e : VEv) :
    (vstep (vrun (sharedNew init) es).1 e).2 = List.replicate e.samples (lastWrite init es) := by
  have h : ∀ (es : List VEv) (c : Cell), (vrun c es).1.bits = lastWrite c.bits es := by
    intro es
    induction es with
    | nil => intro c; rfl
    | cons e es ih =>
      intro c
      rw [lastWrite_cons c.bits e es c rfl]
      exact ih _
  have h' := h es (sharedNew init)
  generalize (vrun (sharedNew init) es).1 = c at h'
  have hl : lastWrite init es = c.bits := h'.symm
  rw [hl]
  cases e with
  | write v => rfl
  | read => rfl
  | tick => rfl
  | block size old =>
    show (List.range size).map _ = List.replicate size _
    apply List.ext_getElem
    · simp
    · intro k h1 h2
      simp only [List.length_map, List.length_range] at h1
      simp [varProcess, setItems, lt_items h1, value]

/-- **C28** mapped variables: both forms of processing show the function of the present value in every sample. -/
theorem C28_varFn {n : Nat} (f : F32 → Frame F32 n) (c : Cell) (size : Nat) (old : Buf F32 n) :
    varFnTick f c = f c.bits ∧ ∀ k, k < size → ∀ ch, varFnProcess f c size old ch k = f c.bits ch := by
  refine ⟨rfl, fun k hk ch => ?_⟩
  simp [varFnProcess, setItems, lt_items hk, value]

example : (vstep (vrun (sharedNew 5#32) [.tick, .write 7#32, .read, .write 0x7fc00001#32, .tick]).1
    (.block 3 (fun _ _ => 0#32))).2 = [0x7fc00001#32, 0x7fc00001#32, 0x7fc00001#32] := C28_var _ _ _

/-- Events of a timer. -/
inductive TEv where
  | tick
  | block (size : Nat)
  | reset
  | rate (sr : ℝ)

noncomputable def tstep (toF32 : ℝ → F32) (s : Timer × Cell) : TEv → Timer × Cell
  | .tick => timerTick toF32 s.1
  | .block size => timerProcess toF32 s.1 size
  | .reset => timerReset toF32 s.1
  | .rate sr => (timerRate sr s.1, s.2)

/-- Specification: stream time, summing the durations of the samples since the last reset. -/
noncomputable def streamTime : ℝ → ℝ → List TEv → ℝ
  | time, _, [] => time
  | time, sr, .tick :: es => streamTime (time + 1 / sr) sr es
  | time, sr, .block size :: es => streamTime (time + size / sr) sr es
  | _, sr, .reset :: es => streamTime 0 sr es
  | time, _, .rate sr :: es => streamTime time sr es

/-- **C28** A timer shows the stream time of the last processed sample, rounded to `f32`, after any mixture of ticks, blocks, resets
and sample rate changes. -/
theorem C28_timer (toF32 : ℝ → F32) (c : Cell) (es : List TEv) :
    value (es.foldl (tstep toF32) (timerNew toF32 c)).2 = toF32 (streamTime 0 44100 es) := by
  have h : ∀ (es : List TEv) (s : Timer × Cell) (sr : ℝ), s.1.sampleDuration = 1 / sr → s.2.bits = toF32 s.1.time →
      (es.foldl (tstep toF32) s).2.bits = toF32 (streamTime s.1.time sr es) := by
    intro es
    induction es with
    | nil => intro s sr _ h2; exact h2
    | cons e es ih =>
      intro s sr h1 h2
      rw [List.foldl_cons]
      cases e with
      | tick =>
        rw [ih (tstep toF32 s .tick) sr h1 rfl]
        simp only [tstep, timerTick, streamTime, h1]
      | block size =>
        rw [ih (tstep toF32 s (.block size)) sr h1 rfl]
        simp only [tstep, timerProcess, streamTime, h1]
        congr 2; ring
      | reset => rw [ih (tstep toF32 s .reset) sr h1 rfl]; rfl
      | rate sr' => rw [ih (tstep toF32 s (.rate sr')) sr' rfl h2]; rfl
  exact h es (timerNew toF32 c) 44100 rfl rfl

/-- In particular the blocking does not matter: `n` samples at `sr` show `n / sr`. -/
theorem C28_timer_samples (toF32 : ℝ → F32) (c : Cell) (sr : ℝ) (sizes : List Nat) :
    value ((TEv.rate sr :: sizes.map TEv.block).foldl (tstep toF32) (timerNew toF32 c)).2 = toF32 (sizes.sum / sr) := by
  rw [C28_timer]
  have : ∀ (sizes : List Nat) (time : ℝ), streamTime time sr (sizes.map TEv.block) = time + sizes.sum / sr := by
    intro sizes
    induction sizes with
    | nil => intro time; simp [streamTime]
    | cons n l ih => intro time; simp only [List.map_cons, streamTime, ih, List.sum_cons]; push_cast; ring
  rw [streamTime, this, zero_add]

/-! ## C67 -/

/-- The table as a periodic sequence over the integers. -/
def periodic (t : List ℝ) (j : ℤ) : ℝ := t.getD (j % t.length).toNat 0

theorem at_mask {t : List ℝ} {k : Nat} (ht : t.length = 2 ^ k) (i : Nat) (j : ℤ) (hj : (j - i) % (t.length : ℤ) = 0) :
    tableAt t (i &&& (t.length - 1)) = some (periodic t j) := by
  have hpos : 0 < t.length := by rw [ht]; positivity
  have hand : i &&& (t.length - 1) = i % t.length := by rw [ht]; exact Nat.and_two_pow_sub_one_eq_mod i k
  have hmod : (j % t.length).toNat = i % t.length := by
    have h1 : j % (t.length : ℤ) = (i : ℤ) % t.length := Int.emod_eq_emod_iff_emod_sub_eq_zero.2 hj
    rw [h1]
    have : ((i : ℤ) % (t.length : ℤ)) = ((i % t.length : ℕ) : ℤ) := by push_cast; rfl
    rw [this, Int.toNat_natCast]
  have hlt : i % t.length < t.length := Nat.mod_lt _ hpos
  rw [hand, tableAt, periodic, hmod, List.getElem?_eq_getElem hlt, List.getD_eq_getElem?_getD, List.getElem?_eq_getElem hlt]
  rfl

theorem toInt_some {p : ℝ} (h : 0 ≤ p) (h' : p < 2 ^ 64) : toInt p = some ⌊p⌋₊ := by rw [toInt, if_pos ⟨h, h'⟩]

/-- **C67** For a table of any power-of-two size up to 2^63 and any phase `≥ 0` below 2^64 table lengths, no read is out of bounds;
with position `length × phase = i + w`, `0 ≤ w < 1`, cubic reading is the spline through the four circular neighbours `i - 1 .. i + 2`,
linear reading interpolates `i` and `i + 1`, and the nearest mode reads `i`. -/
theorem C67_table (t : List ℝ) (k : Nat) (ht : t.length = 2 ^ k) (hk : k ≤ 63) (phase : ℝ) (h0 : 0 ≤ phase)
    (h1 : t.length * phase < 2 ^ 64) :
    ∃ (i : ℤ) (w : ℝ), 0 ≤ w ∧ w < 1 ∧ t.length * phase = i + w ∧
      readCubic t phase = some (spline (periodic t (i - 1)) (periodic t i) (periodic t (i + 1)) (periodic t (i + 2)) w) ∧
      readLinear t phase = some (lerp (periodic t i) (periodic t (i + 1)) w) ∧
      readNearest t phase = some (periodic t i) := by
  have hp : (0 : ℝ) ≤ t.length * phase := by positivity
  obtain ⟨n, hn⟩ : ∃ n : ℕ, n = ⌊(t.length : ℝ) * phase⌋₊ := ⟨_, rfl⟩
  have hpow : (2 : ℕ) ^ k ∣ 2 ^ 64 := Nat.pow_dvd_pow 2 (by omega)
  have hand : ∀ i, i &&& (t.length - 1) = i % t.length := fun i => by rw [ht]; exact Nat.and_two_pow_sub_one_eq_mod i k
  have hpos : 0 < t.length := by rw [ht]; positivity
  have e : ∀ d : ℕ, ((n : ℤ) + d - ((n &&& (t.length - 1)) + d : ℕ)) % (t.length : ℤ) = 0 := by
    intro d
    rw [hand]
    have : ((n : ℤ) + d - ((n % t.length + d : ℕ) : ℤ)) = t.length * (n / t.length : ℕ) := by
      have := Nat.div_add_mod n t.length
      have h2 : (n : ℤ) = t.length * (n / t.length : ℕ) + (n % t.length : ℕ) := by exact_mod_cast this.symm
      push_cast at h2 ⊢
      linarith
    rw [this, Int.mul_emod_right]
  refine ⟨n, t.length * phase - n, ?_, ?_, by push_cast; ring, ?_, ?_, ?_⟩
  · have := Nat.floor_le hp; rw [← hn] at this; linarith
  · have := Nat.lt_floor_add_one ((t.length : ℝ) * phase); rw [← hn] at this; linarith
  · have a0 : tableAt t (wrappingPred n &&& (t.length - 1)) = some (periodic t ((n : ℤ) - 1)) := by
      apply at_mask ht
      have hw : ((wrappingPred n : ℕ) : ℤ) = ((n : ℤ) + (2 ^ 64 - 1)) % 2 ^ 64 := by
        unfold wrappingPred; push_cast; norm_num
      apply Int.emod_eq_zero_of_dvd
      have hd : (t.length : ℤ) ∣ 2 ^ 64 := by rw [ht]; exact_mod_cast hpow
      have h3 : ((n : ℤ) + (2 ^ 64 - 1)) % 2 ^ 64 = (n : ℤ) + (2 ^ 64 - 1) - 2 ^ 64 * (((n : ℤ) + (2 ^ 64 - 1)) / 2 ^ 64) := by
        rw [Int.emod_def]
      rw [hw, h3]
      have : (n : ℤ) - 1 - ((n : ℤ) + (2 ^ 64 - 1) - 2 ^ 64 * (((n : ℤ) + (2 ^ 64 - 1)) / 2 ^ 64)) =
          2 ^ 64 * ((((n : ℤ) + (2 ^ 64 - 1)) / 2 ^ 64) - 1) := by ring
      rw [this]
      exact Dvd.dvd.mul_right hd _
    have a1 := at_mask ht n (n : ℤ) (by simp)
    have a2 := at_mask ht ((n &&& (t.length - 1)) + 1) ((n : ℤ) + 1) (e 1)
    have a3 := at_mask ht ((n &&& (t.length - 1)) + 2) ((n : ℤ) + 2) (e 2)
    simp only [readCubic, toInt_some hp h1, Option.bind_some, ← hn, a0, a1, a2, a3]
  · have a1 := at_mask ht n (n : ℤ) (by simp)
    have a2 := at_mask ht ((n &&& (t.length - 1)) + 1) ((n : ℤ) + 1) (e 1)
    simp only [readLinear, toInt_some hp h1, Option.bind_some, ← hn, a1, a2]
  · simp only [readNearest, toInt_some hp h1, Option.bind_some, ← hn]
    exact at_mask ht n (n : ℤ) (by simp)

example : readLinear [0, 1, 2, 3] (7 / 8) = some (lerp 3 0 (1 / 2)) := by
  have h : toInt ((4 : ℝ) * (7 / 8)) = some 3 := by
    rw [toInt_some (by norm_num) (by norm_num)]
    congr 1
    rw [Nat.floor_eq_iff (by norm_num)]
    norm_num
  have hl : ((([0, 1, 2, 3] : List ℝ).length : ℕ) : ℝ) = 4 := by norm_num
  simp only [readLinear, hl, h, Option.bind_some]
  show some (lerp 3 0 _) = _
  norm_num

/-- Phase of the oscillator after the frequencies `fs`. -/
noncomputable def synthPhase (m : Interpolation) (t : List ℝ) (dur p0 : ℝ) (fs : List ℝ) : ℝ :=
  fs.foldl (fun p f => (synthTick m t dur p f).1) p0

/-- **C67** The oscillator's phase is the fractional part of the accumulated cycles, stays in [0, 1), and its reads never fail. -/
theorem C67_synth (m : Interpolation) (t : List ℝ) (k : Nat) (ht : t.length = 2 ^ k) (hk : k ≤ 63) (dur p0 : ℝ) (fs : List ℝ) (f : ℝ) :
    let p := synthPhase m t dur p0 (fs ++ [f])
    0 ≤ p ∧ p < 1 ∧ p = Int.fract (p0 + (fs ++ [f]).sum * dur) ∧
      (synthTick m t dur (synthPhase m t dur p0 fs) f).2 = readMode m t p ∧ (readMode m t p).isSome := by
  intro p
  have hp : p = (synthTick m t dur (synthPhase m t dur p0 fs) f).1 := by
    show synthPhase m t dur p0 (fs ++ [f]) = _
    simp only [synthPhase, List.foldl_append, List.foldl_cons, List.foldl_nil]
  have hfr : ∀ (fs : List ℝ) (p0 : ℝ), ∃ z : ℤ, synthPhase m t dur p0 fs = p0 + fs.sum * dur + z := by
    intro fs
    induction fs with
    | nil => intro p0; exact ⟨0, by simp [synthPhase]⟩
    | cons f fs ih =>
      intro p0
      obtain ⟨z, hz⟩ := ih (synthTick m t dur p0 f).1
      refine ⟨z - ⌊p0 + f * dur⌋, ?_⟩
      rw [show synthPhase m t dur p0 (f :: fs) = synthPhase m t dur (synthTick m t dur p0 f).1 fs from rfl, hz]
      simp only [synthTick, List.sum_cons]
      push_cast; ring
  have hfe : p = Int.fract (synthPhase m t dur p0 fs + f * dur) := by rw [hp]; rfl
  have h0 : 0 ≤ p := by rw [hfe]; exact Int.fract_nonneg _
  have h1 : p < 1 := by rw [hfe]; exact Int.fract_lt_one _
  refine ⟨h0, h1, ?_, by rw [hp]; rfl, ?_⟩
  · obtain ⟨z, hz⟩ := hfr fs p0
    rw [hfe, hz]
    have : p0 + fs.sum * dur + z + f * dur = p0 + (fs ++ [f]).sum * dur + z := by simp; ring
    rw [this, Int.fract_add_intCast]
  · have hlen : (t.length : ℝ) * p < 2 ^ 64 := by
      have h2 : (t.length : ℝ) ≤ 2 ^ 63 := by
        rw [ht]; push_cast
        exact pow_le_pow_right₀ (by norm_num) hk
      have : (t.length : ℝ) * p ≤ t.length * 1 := mul_le_mul_of_nonneg_left h1.le (by positivity)
      have h3 : (2 : ℝ) ^ 63 < 2 ^ 64 := by norm_num
      linarith
    obtain ⟨i, w, _, _, _, hc, hl, hn⟩ := C67_table t k ht hk p h0 hlen
    cases m with
    | nearest => show (readNearest t p).isSome; rw [hn]; rfl
    | linear => show (readLinear t p).isSome; rw [hl]; rfl
    | cubic => show (readCubic t p).isSome; rw [hc]; rfl

/-! ## C66 -/

variable {R : Type}

/-- Running a hold node on inputs (signal, frequency): states before each sample. -/
noncomputable def holdSt (next : R → R × ℝ) (dur v : ℝ) (h0 : Hold R) (x : ℕ → ℝ × ℝ) : ℕ → Hold R
  | 0 => h0
  | n + 1 => (holdTick next dur v (holdSt next dur v h0 x n) (x n).1 (x n).2).1

noncomputable def holdOut (next : R → R × ℝ) (dur v : ℝ) (h0 : Hold R) (x : ℕ → ℝ × ℝ) (n : ℕ) : ℝ :=
  (holdTick next dur v (holdSt next dur v h0 x n) (x n).1 (x n).2).2

/-- **C66** After a reset there is a set of sampling instants such that: the first sample is one; the output at any time is the input
at the latest instant not later than now (so it changes only at instants); and from an instant `n`, with sampling frequency `f` at that
instant, the next one `m` is the first sample at least `J / f` seconds later, where `1 - v ≤ J ≤ 1 + v`. -/
theorem C66_hold (next : R → R × ℝ) (hnext : ∀ r, 0 ≤ (next r).2 ∧ (next r).2 ≤ 1) (dur v : ℝ) (hd : 0 < dur) (hv : 0 ≤ v)
    (seed : R) (h : Hold R) (x : ℕ → ℝ × ℝ) :
    ∃ S : ℕ → Prop, S 0 ∧
      (∀ n, ∃ m ≤ n, S m ∧ (∀ j, m < j → j ≤ n → ¬ S j) ∧ holdOut next dur v (holdReset seed h) x n = (x m).1) ∧
      (∀ n, S n → ∃ J, 1 - v ≤ J ∧ J ≤ 1 + v ∧ ∀ m, n < m →
        (S m ∧ ∀ j, n < j → j < m → ¬ S j) →
          J / (x n).2 ≤ (m - n : ℝ) * dur ∧ (n + 1 < m → ((m - n : ℝ) - 1) * dur < J / (x n).2)) := by
  set st := holdSt next dur v (holdReset seed h) x with hst
  have ht : ∀ n, (st n).t = n * dur := by
    intro n
    induction n with
    | zero => simp [hst, holdSt, holdReset]
    | succ n ih =>
      have : (st (n + 1)).t = (st n).t + dur := by
        show (holdTick next dur v (st n) _ _).1.t = _
        simp only [holdTick]; split <;> rfl
      rw [this, ih]; push_cast; ring
  -- sampling instants
  refine ⟨fun n => (st n).nextT ≤ (st n).t, ?_, ?_, ?_⟩
  · simp [hst, holdSt, holdReset]
  · intro n
    have hout : ∀ n, holdOut next dur v (holdReset seed h) x n = (st (n + 1)).hold := fun n => by
      show (holdTick next dur v (st n) _ _).2 = (holdTick next dur v (st n) _ _).1.hold
      rfl
    have hyes : ∀ n, (st n).nextT ≤ (st n).t → (st (n + 1)).hold = (x n).1 := by
      intro n hn
      show (holdTick next dur v (st n) _ _).1.hold = _
      simp only [holdTick, if_pos hn]
    have hno : ∀ n, ¬ (st n).nextT ≤ (st n).t → (st (n + 1)).hold = (st n).hold := by
      intro n hn
      show (holdTick next dur v (st n) _ _).1.hold = _
      simp only [holdTick, if_neg hn]
    simp only [hout]
    induction n with
    | zero => exact ⟨0, le_refl _, by simp [hst, holdSt, holdReset], fun j h1 h2 => absurd h1 (by omega), hyes 0 (by simp [hst, holdSt, holdReset])⟩
    | succ n ih =>
      by_cases hs : (st (n + 1)).nextT ≤ (st (n + 1)).t
      · exact ⟨n + 1, le_refl _, hs, fun j h1 h2 => absurd h1 (by omega), hyes _ hs⟩
      · obtain ⟨m, hm, h1, h2, h3⟩ := ih
        refine ⟨m, by omega, h1, fun j hj1 hj2 => ?_, by rw [hno _ hs, h3]⟩
        rcases Nat.lt_or_ge n j with hj | hj
        · have : j = n + 1 := by omega
          subst this; exact hs
        · exact h2 j hj1 hj
  · intro n hn
    refine ⟨lerp (1 - v) (1 + v) (next (st n).rnd).2, ?_, ?_, ?_⟩
    · have := hnext (st n).rnd
      unfold lerp; nlinarith [mul_nonneg hv this.1]
    · have := hnext (st n).rnd
      unfold lerp; nlinarith [mul_nonneg hv (sub_nonneg.2 this.2)]
    · rintro m hm ⟨hsm, hbetween⟩
      have hnx : ∀ d, n + 1 + d ≤ m → (st (n + 1 + d)).nextT = n * dur + lerp (1 - v) (1 + v) (next (st n).rnd).2 / (x n).2 := by
        intro d
        induction d with
        | zero =>
          intro _
          show (holdTick next dur v (st n) _ _).1.nextT = _
          simp only [holdTick, if_pos hn]
          rw [ht n]
        | succ d ih =>
          intro hd'
          rw [← ih (by omega)]
          show (holdTick next dur v (st (n + 1 + d)) _ _).1.nextT = _
          have hb : ¬ (st (n + 1 + d)).nextT ≤ (st (n + 1 + d)).t := hbetween (n + 1 + d) (by omega) (by omega)
          simp only [holdTick, if_neg hb]
      constructor
      · have e := hnx (m - (n + 1)) (by omega)
        rw [show n + 1 + (m - (n + 1)) = m by omega] at e
        rw [e, ht m] at hsm
        linarith
      · intro hm2
        have e := hnx (m - 1 - (n + 1)) (by omega)
        rw [show n + 1 + (m - 1 - (n + 1)) = m - 1 by omega] at e
        have hb : ¬ (st (m - 1)).nextT ≤ (st (m - 1)).t := hbetween (m - 1) (by omega) (by omega)
        rw [e, ht (m - 1)] at hb
        push_neg at hb
        rw [Nat.cast_sub (by omega)] at hb
        push_cast at hb
        linarith

/-- Non-vacuity: period of two samples, no variability; instants 0, 2, 4, ... -/
example : holdOut (fun r : Unit => (r, 0)) 1 0 (holdReset () ⟨(), 5, 7, 9⟩) (fun n => (n, 1 / 2)) 3 = 2 := by
  norm_num [holdOut, holdSt, holdTick, holdReset, lerp]

end Fundsp.Shared
