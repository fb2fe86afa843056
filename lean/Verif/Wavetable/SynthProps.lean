import Verif.Wavetable.Synth
import Verif.Wavetable.Make
import Verif.Core.Cond
import Verif.Hash.Model
import Mathlib.Algebra.Order.Round
import Mathlib.Algebra.Order.Floor.Ring
import Mathlib.Tactic.IntervalCases

/-!
# C74: wavetable oscillators
-/

noncomputable section
namespace Fundsp.Wt

/-- The phase of an oscillator at sample `n`: what it started with plus all frequencies so far times the sample duration, modulo one. -/
def phaseAt (φ sd : ℝ) (f : Nat → ℝ) (n : Nat) : ℝ := Int.fract (φ + ∑ k ∈ Finset.range (n + 1), f k * sd)

theorem phaseAt_range (φ sd : ℝ) (f : Nat → ℝ) (n : Nat) : 0 ≤ phaseAt φ sd f n ∧ phaseAt φ sd f n < 1 := ⟨Int.fract_nonneg _, Int.fract_lt_one _⟩

theorem readD_heard {t : Table} (ht : Valid t) {hint : Nat} (hh : hint ≤ t.length - 3) (f phase : ℝ) (h0 : 0 ≤ phase) (h1 : phase < 1) :
    Heard t f phase (readD t hint f phase).1 ∧ (readD t hint f phase).2 ≤ t.length - 3 ∧ (readD t hint f phase).2 = (tableIndex t hint f).getD hint ∧
      read t hint f phase ≠ none := by
  obtain ⟨v, h', e, hle⟩ := C62_in_bounds t ht hint hh f phase h0 h1.le
  have hs := C62_select t ht hint hh f phase v h' e h0 h1.le
  have e' : readD t hint f phase = (v, h') := by unfold readD; rw [e]; rfl
  refine ⟨by rw [e']; exact hs, by rw [e']; exact hle, ?_, by rw [e]; simp⟩
  rw [e']
  unfold read at e
  cases hi : tableIndex t hint f with
  | none => rw [hi] at e; cases e
  | some i =>
    rw [hi] at e
    simp only [Option.bind_eq_bind, Option.bind_some] at e
    obtain ⟨a, _, e⟩ := Option.bind_eq_some_iff.1 e
    obtain ⟨b, _, e⟩ := Option.bind_eq_some_iff.1 e
    obtain ⟨x, _, e⟩ := Option.bind_eq_some_iff.1 e
    obtain ⟨y, _, e⟩ := Option.bind_eq_some_iff.1 e
    exact (Prod.mk.inj (Option.some.inj e)).2.symm

/-- A state of an oscillator that has accumulated the phase `φ` modulo one. -/
structure At (t : Table) (s : WaveSt) (φ sd : ℝ) : Prop where
  hint : s.hint ≤ t.length - 3
  sd : s.sd = sd
  phase : Int.fract s.phase = Int.fract φ

theorem fract_add_congr {a b : ℝ} (h : Int.fract a = Int.fract b) (x : ℝ) : Int.fract (a + x) = Int.fract (b + x) := by
  rw [Int.fract_eq_fract] at h ⊢
  obtain ⟨z, hz⟩ := h
  exact ⟨z, by linarith⟩

theorem wave_tick {t : Table} (ht : Valid t) (o : Nat) {s : WaveSt} {φ sd : ℝ} (hs : At t s φ sd) (x : Frame ℝ 1) :
    At t (WaveSt.tick t o s x).1 (φ + x 0 * sd) sd ∧ Heard t |x 0| (Int.fract (φ + x 0 * sd)) ((WaveSt.tick t o s x).2 0) ∧
      (∀ c, c ≠ 0 → (WaveSt.tick t o s x).2 c = Int.fract (φ + x 0 * sd)) ∧ read t s.hint |x 0| (Int.fract (φ + x 0 * sd)) ≠ none := by
  obtain ⟨h1, h2, h3⟩ := hs
  have e : s.phase + x 0 * s.sd - ⌊s.phase + x 0 * s.sd⌋ = Int.fract (φ + x 0 * sd) := by
    rw [h2]; exact fract_add_congr h3 _
  obtain ⟨a, b, _, d⟩ := readD_heard ht h1 |x 0| (Int.fract (φ + x 0 * sd)) (Int.fract_nonneg _) (Int.fract_lt_one _)
  refine ⟨⟨?_, h2, ?_⟩, ?_, ?_, d⟩
  · show (readD t s.hint |x 0| (s.phase + x 0 * s.sd - ⌊s.phase + x 0 * s.sd⌋)).2 ≤ _
    rw [e]; exact b
  · show Int.fract (s.phase + x 0 * s.sd - ⌊s.phase + x 0 * s.sd⌋) = _
    rw [e, Int.fract_fract]
  · show Heard t |x 0| _ (readD t s.hint |x 0| (s.phase + x 0 * s.sd - ⌊s.phase + x 0 * s.sd⌋)).1
    rw [e]; exact a
  · intro c hc
    show (if c = 0 then _ else s.phase + x 0 * s.sd - ⌊s.phase + x 0 * s.sd⌋) = _
    rw [if_neg hc, e]

theorem accum_eq (φ sd : ℝ) (x : Nat → ℝ) (k : Nat) : WaveSt.accum φ sd x k = φ + ∑ j ∈ Finset.range k, x j * sd := by
  induction k with
  | zero => simp [WaveSt.accum]
  | succ k ih => rw [WaveSt.accum, ih, Finset.sum_range_succ]; ring

theorem wave_item {t : Table} (ht : Valid t) (o : Nat) {s : WaveSt} {φ sd : ℝ} (hs : At t s φ sd) (x : Nat → Frame ℝ 1) :
    At t (WaveSt.item t o s x).1 (φ + ∑ k ∈ Finset.range 8, x k 0 * sd) sd ∧
      ∀ j, Heard t |x 0 0| (phaseAt φ sd (fun k => x k 0) j) ((WaveSt.item t o s x).2 j 0) ∧
        ∀ c, c ≠ 0 → (WaveSt.item t o s x).2 j c = phaseAt φ sd (fun k => x k 0) j := by
  obtain ⟨h1, h2, h3⟩ := hs
  have e : ∀ j, WaveSt.accum s.phase s.sd (fun k => x k 0) (j + 1) - ⌊WaveSt.accum s.phase s.sd (fun k => x k 0) (j + 1)⌋ = phaseAt φ sd (fun k => x k 0) j := by
    intro j
    rw [accum_eq, h2]; exact fract_add_congr h3 _
  obtain ⟨_, b, b', _⟩ := readD_heard ht h1 |x 0 0| 0 le_rfl one_pos
  refine ⟨⟨?_, h2, ?_⟩, fun j => ⟨?_, fun c hc => ?_⟩⟩
  · show (tableIndex t s.hint |x 0 0|).getD s.hint ≤ _
    rw [← b']; exact b
  · show Int.fract (WaveSt.accum s.phase s.sd (fun k => x k 0) 8) = _
    rw [accum_eq, h2]; exact fract_add_congr h3 _
  · show Heard t |x 0 0| _ (readD t s.hint |x 0 0| (WaveSt.accum s.phase s.sd (fun k => x k 0) (j + 1) - ⌊WaveSt.accum s.phase s.sd (fun k => x k 0) (j + 1)⌋)).1
    rw [e]
    exact (readD_heard ht h1 |x 0 0| _ (phaseAt_range _ _ _ _).1 (phaseAt_range _ _ _ _).2).1
  · show (if c = 0 then _ else WaveSt.accum s.phase s.sd (fun k => x k 0) (j + 1) - ⌊WaveSt.accum s.phase s.sd (fun k => x k 0) (j + 1)⌋) = _
    rw [if_neg hc, e]

/-- What an output frame at sample `n` should be when the table is selected by the frequency `g`. -/
def Plays (t : Table) (φ sd : ℝ) (f : Nat → ℝ) {o : Nat} (g : ℝ) (n : Nat) (y : Frame ℝ (o + 1)) : Prop :=
  Heard t |g| (phaseAt φ sd f n) (y 0) ∧ ∀ c, c ≠ 0 → y c = phaseAt φ sd f n

theorem Plays.unique {t : Table} (ht : Valid t) {φ sd : ℝ} {f f' : Nat → ℝ} {o : Nat} {g g' : ℝ} {n : Nat} {y y' : Frame ℝ (o + 1)}
    (h : Plays t φ sd f g n y) (h' : Plays t φ sd f g' n y') (hg : |g| = |g'|) : y = y' := by
  funext c
  by_cases hc : c = 0
  · subst hc
    have := h.1
    rw [hg] at this
    exact heard_unique t ht _ _ this h'.1
  · rw [h.2 c hc, h'.2 c hc]

theorem phaseAt_shift (φ sd : ℝ) (f : Nat → ℝ) (a k : Nat) :
    phaseAt (φ + ∑ j ∈ Finset.range a, f j * sd) sd (fun j => f (a + j)) k = phaseAt φ sd f (a + k) := by
  unfold phaseAt
  rw [add_assoc, ← Finset.sum_range_add (fun j => f j * sd) a (k + 1)]
  rfl

theorem wave_items {t : Table} (ht : Valid t) (o : Nat) (inp : Buf ℝ 1) (sd : ℝ) : ∀ (n j : Nat) (s : WaveSt) (out : Buf ℝ (o + 1)) (φ : ℝ), At t s φ sd →
    At t (itemLoop (WaveSt.item t o) inp j n s out).1 (φ + ∑ k ∈ Finset.range (8 * n), inp 0 (8 * j + k) * sd) sd ∧
    (∀ k, k < 8 * n → Plays t φ sd (fun k => inp 0 (8 * j + k)) (inp 0 (8 * j + 8 * (k / 8))) k ((itemLoop (WaveSt.item t o) inp j n s out).2.frame (8 * j + k))) ∧
    (∀ k, k < 8 * j ∨ 8 * j + 8 * n ≤ k → (itemLoop (WaveSt.item t o) inp j n s out).2.frame k = out.frame k) := by
  intro n
  induction n with
  | zero =>
    intro j s out φ hs
    refine ⟨by simpa [itemLoop, tickLoop] using hs, fun k hk => absurd hk (by omega), fun k _ => rfl⟩
  | succ n ih =>
    intro j s out φ hs
    obtain ⟨h1, h2⟩ := wave_item ht o hs (fun k => inp.frame (8 * j + k))
    obtain ⟨a, b, c⟩ := ih (j + 1) _ (fun c k => if 8 * j ≤ k ∧ k < 8 * j + 8 then (WaveSt.item t o s (fun k => inp.frame (8 * j + k))).2 (k - 8 * j) c else out c k) _ h1
    have e0 : ∀ k, inp.frame (8 * j + k) 0 = inp 0 (8 * j + k) := fun _ => rfl
    have e1 : ∀ k, inp 0 (8 * (j + 1) + k) = inp 0 (8 * j + (8 + k)) := fun k => by congr 1; omega
    refine ⟨?_, ?_, ?_⟩
    · show At t (itemLoop _ inp (j + 1) n _ _).1 _ _
      refine ⟨a.1, a.2, a.3.trans ?_⟩
      rw [show 8 * (n + 1) = 8 + 8 * n by omega, Finset.sum_range_add]
      simp only [e0, e1, add_assoc]
    · intro k hk
      show Plays t φ sd _ _ k ((itemLoop _ inp (j + 1) n _ _).2.frame _)
      by_cases hk8 : k < 8
      · rw [c _ (Or.inl (by omega)), show k / 8 = 0 by omega, Nat.mul_zero, Nat.add_zero]
        have := h2 k
        refine ⟨?_, fun c hc => ?_⟩
        · show Heard t _ _ (if 8 * j ≤ 8 * j + k ∧ 8 * j + k < 8 * j + 8 then _ else _)
          rw [if_pos ⟨by omega, by omega⟩, Nat.add_sub_cancel_left]
          exact this.1
        · show (if 8 * j ≤ 8 * j + k ∧ 8 * j + k < 8 * j + 8 then _ else _) = _
          rw [if_pos ⟨by omega, by omega⟩, Nat.add_sub_cancel_left]
          exact this.2 c hc
      · obtain ⟨d, rfl⟩ : ∃ d, k = 8 + d := ⟨k - 8, by omega⟩
        have hb := b d (by omega)
        rw [show 8 * (j + 1) + d = 8 * j + (8 + d) by omega, show 8 * (j + 1) + 8 * (d / 8) = 8 * j + 8 * ((8 + d) / 8) by omega] at hb
        have es := phaseAt_shift φ sd (fun k => inp 0 (8 * j + k)) 8 d
        have ef : (fun k => inp 0 (8 * (j + 1) + k)) = fun k => inp 0 (8 * j + (8 + k)) := funext e1
        rw [ef] at hb
        unfold Plays at hb ⊢
        rw [← es]
        exact hb
    · intro k hk
      show (itemLoop _ inp (j + 1) n _ _).2.frame _ = _
      rw [c k (by omega)]
      funext ch
      show (if _ then _ else _) = _
      rw [if_neg (by omega)]
      rfl

theorem wave_ticks {t : Table} (ht : Valid t) (o : Nat) (inp : Buf ℝ 1) (sd : ℝ) : ∀ (n a : Nat) (s : WaveSt) (out : Buf ℝ (o + 1)) (φ : ℝ), At t s φ sd →
    At t (tickLoop (WaveSt.tick t o) inp a n s out).1 (φ + ∑ k ∈ Finset.range n, inp 0 (a + k) * sd) sd ∧
    (∀ k, k < n → Plays t φ sd (fun k => inp 0 (a + k)) (inp 0 (a + k)) k ((tickLoop (WaveSt.tick t o) inp a n s out).2.frame (a + k))) ∧
    (∀ k, k < a ∨ a + n ≤ k → (tickLoop (WaveSt.tick t o) inp a n s out).2.frame k = out.frame k) := by
  intro n
  induction n with
  | zero =>
    intro a s out φ hs
    refine ⟨by simpa [itemLoop, tickLoop] using hs, fun k hk => absurd hk (by omega), fun k _ => rfl⟩
  | succ n ih =>
    intro a s out φ hs
    obtain ⟨h1, h2, h3, _⟩ := wave_tick ht o hs (inp.frame a)
    obtain ⟨p, q, r⟩ := ih (a + 1) _ (setSample a (WaveSt.tick t o s (inp.frame a)).2 out) _ h1
    have e1 : ∀ k, inp 0 (a + 1 + k) = inp 0 (a + (1 + k)) := fun k => by congr 1; omega
    refine ⟨⟨p.1, p.2, p.3.trans ?_⟩, ?_, ?_⟩
    · rw [show n + 1 = 1 + n by omega, Finset.sum_range_add]
      simp only [add_assoc, Finset.sum_range_one, Nat.add_zero]
      rfl
    · intro k hk
      show Plays t φ sd _ _ k ((tickLoop _ inp (a + 1) n _ _).2.frame _)
      cases k with
      | zero =>
        rw [Nat.add_zero, r a (Or.inl (by omega))]
        have e : phaseAt φ sd (fun k => inp 0 (a + k)) 0 = Int.fract (φ + inp.frame a 0 * sd) := by simp [phaseAt, Buf.frame]
        refine ⟨?_, fun c hc => ?_⟩
        · rw [e]
          show Heard t _ _ (if a = a then _ else _)
          rw [if_pos rfl]; exact h2
        · rw [e]
          show (if a = a then _ else _) = _
          rw [if_pos rfl]; exact h3 c hc
      | succ d =>
        have hb := q d (by omega)
        rw [show a + 1 + d = a + (d + 1) by omega] at hb
        have es := phaseAt_shift φ sd (fun k => inp 0 (a + k)) 1 d
        have ef : (fun k => inp 0 (a + 1 + k)) = fun k => inp 0 (a + (1 + k)) := funext e1
        rw [ef] at hb
        unfold Plays at hb ⊢
        rw [show d + 1 = 1 + d by omega] at *
        rw [← es]
        simpa [Buf.frame] using hb
    · intro k hk
      show (tickLoop _ inp (a + 1) n _ _).2.frame _ = _
      rw [r k (by omega)]
      funext ch
      show (if k = a then _ else _) = _
      rw [if_neg (by omega)]
      rfl

/-- The sample whose frequency selects the table for sample `k` of a block: the first one of its group of eight, except in the remainder. -/
def head (size k : Nat) : Nat := if k < 8 * (size / 8) then 8 * (k / 8) else k

theorem full_eq (size : Nat) : fullSimdItems size = size / 8 := by simp [fullSimdItems, Nat.shiftRight_eq_div_pow]

/-- **C74, blocks.** In a block too the phase is the accumulated one at every sample; the table is selected once for eight samples. -/
theorem C74_process {t : Table} (ht : Valid t) (o : Nat) {s : WaveSt} {φ sd : ℝ} (hs : At t s φ sd) (size : Nat) (inp : Buf ℝ 1) (out : Buf ℝ (o + 1)) :
    At t (WaveSt.process t o s size inp out).1 (φ + ∑ k ∈ Finset.range size, inp 0 k * sd) sd ∧
    ∀ k, k < size → Plays t φ sd (inp 0) (inp 0 (head size k)) k ((WaveSt.process t o s size inp out).2.frame k) := by
  have hf := eight_fullSimdItems_le size
  obtain ⟨a, b, _⟩ := wave_items ht o inp sd (fullSimdItems size) 0 s out φ hs
  simp only [Nat.mul_zero, Nat.zero_add] at a b
  have a' : At t { (itemLoop (WaveSt.item t o) inp 0 (fullSimdItems size) s out).1 with
      phase := (itemLoop (WaveSt.item t o) inp 0 (fullSimdItems size) s out).1.phase - ⌊(itemLoop (WaveSt.item t o) inp 0 (fullSimdItems size) s out).1.phase⌋ }
      (φ + ∑ k ∈ Finset.range (8 * fullSimdItems size), inp 0 k * sd) sd := ⟨a.1, a.2, (Int.fract_fract _).trans a.3⟩
  obtain ⟨p, q, r⟩ := wave_ticks ht o inp sd (size - 8 * fullSimdItems size) (8 * fullSimdItems size) _ (itemLoop (WaveSt.item t o) inp 0 (fullSimdItems size) s out).2 _ a'
  refine ⟨⟨p.1, p.2, p.3.trans ?_⟩, fun k hk => ?_⟩
  · rw [add_assoc, ← Finset.sum_range_add (fun k => inp 0 k * sd), Nat.add_sub_cancel' hf]
  · show Plays t φ sd _ _ k ((tickLoop _ inp _ _ _ _).2.frame k)
    unfold head
    rw [← full_eq]
    by_cases hk8 : k < 8 * fullSimdItems size
    · rw [if_pos hk8, r k (Or.inl hk8)]
      exact b k hk8
    · rw [if_neg hk8]
      obtain ⟨d, rfl⟩ : ∃ d, k = 8 * fullSimdItems size + d := ⟨k - 8 * fullSimdItems size, by omega⟩
      have := q d (by omega)
      unfold Plays at this ⊢
      rw [phaseAt_shift φ sd (inp 0)] at this
      exact this

/-! ## Ticking -/

theorem wave_st {t : Table} (ht : Valid t) (rnd : Nat → ℝ) (o : Nat) {s : WaveSt} {φ sd : ℝ} (hs : At t s φ sd) (w : Nat → Frame ℝ 1) (n : Nat) :
    At t ((waveSynth t rnd o).ticks.st s w n) (φ + ∑ k ∈ Finset.range n, w k 0 * sd) sd := by
  induction n with
  | zero =>
    rw [Finset.sum_range_zero, add_zero]; exact hs
  | succ n ih =>
    have := (wave_tick ht o ih (w n)).1
    rw [Finset.sum_range_succ, ← add_assoc]
    exact this

theorem wave_out {t : Table} (ht : Valid t) (rnd : Nat → ℝ) (o : Nat) {s : WaveSt} {φ sd : ℝ} (hs : At t s φ sd) (w : Nat → Frame ℝ 1) (n : Nat) :
    Plays t φ sd (fun k => w k 0) (w n 0) n ((waveSynth t rnd o).stream s w n) := by
  have h := wave_tick ht o (wave_st ht rnd o hs w n) (w n)
  unfold Plays phaseAt
  rw [Finset.sum_range_succ, ← add_assoc]
  exact ⟨h.2.1, h.2.2.1⟩

/-- A new oscillator with sample rate, possibly an initial phase, and a hash, as set when it is placed in a graph. -/
def placed (rnd : Nat → ℝ) (sr : ℝ) (p : Option ℝ) (h : Nat) : WaveSt :=
  WaveSt.setHash rnd (match p with | some p => (WaveSt.new.setSampleRate sr).setPhase p | none => WaveSt.new.setSampleRate sr) h

/-- The initial phase: the one asked for, otherwise pseudorandom. -/
def startPhase (rnd : Nat → ℝ) (p : Option ℝ) (h : Nat) : ℝ := match p with | some p => p | none => rnd h

theorem placed_eq (rnd : Nat → ℝ) (sr : ℝ) (p : Option ℝ) (h : Nat) : placed rnd sr p h = ⟨startPhase rnd p h, h, p, 0, 1 / sr⟩ := by
  cases p <;> rfl

theorem placed_at (t : Table) (rnd : Nat → ℝ) (sr : ℝ) (p : Option ℝ) (h : Nat) : At t (placed rnd sr p h) (startPhase rnd p h) (1 / sr) := by
  rw [placed_eq]; exact ⟨Nat.zero_le _, rfl, rfl⟩

/-- **C74.** The oscillator plays its table, selected by the current frequency, at the phase which is the sum of all frequencies so far divided by
the sample rate, modulo one, from the initial phase. A second output carries that phase. -/
theorem C74_wave {t : Table} (ht : Valid t) (rnd : Nat → ℝ) (o : Nat) (sr : ℝ) (p : Option ℝ) (h : Nat) (w : Nat → Frame ℝ 1) (n : Nat) :
    Heard t |w n 0| (Int.fract (startPhase rnd p h + (∑ k ∈ Finset.range (n + 1), w k 0) / sr)) ((waveSynth t rnd o).stream (placed rnd sr p h) w n 0) ∧
    ∀ c, c ≠ 0 → (waveSynth t rnd o).stream (placed rnd sr p h) w n c = Int.fract (startPhase rnd p h + (∑ k ∈ Finset.range (n + 1), w k 0) / sr) := by
  have := wave_out ht rnd o (placed_at t rnd sr p h) w n
  unfold Plays phaseAt at this
  rw [← Finset.sum_mul, mul_one_div] at this
  exact this

/-- **C74.** The phase output stays in 0...1. -/
theorem C74_range {t : Table} (ht : Valid t) (rnd : Nat → ℝ) (o : Nat) (sr : ℝ) (p : Option ℝ) (h : Nat) (w : Nat → Frame ℝ 1) (n : Nat) (c : Fin (o + 1)) (hc : c ≠ 0) :
    0 ≤ (waveSynth t rnd o).stream (placed rnd sr p h) w n c ∧ (waveSynth t rnd o).stream (placed rnd sr p h) w n c < 1 := by
  rw [(C74_wave ht rnd o sr p h w n).2 c hc]
  exact ⟨Int.fract_nonneg _, Int.fract_lt_one _⟩

/-- **C74.** No tick indexes outside a table. -/
theorem C74_no_panic {t : Table} (ht : Valid t) (rnd : Nat → ℝ) (o : Nat) (sr : ℝ) (p : Option ℝ) (h : Nat) (w : Nat → Frame ℝ 1) (n : Nat) :
    read t (WaveSt.hint ((waveSynth t rnd o).ticks.st (placed rnd sr p h) w n)) |w n 0|
      (Int.fract (startPhase rnd p h + ∑ k ∈ Finset.range (n + 1), w k 0 * (1 / sr))) ≠ none := by
  have := (wave_tick ht o (wave_st ht rnd o (placed_at t rnd sr p h) w n) (w n)).2.2.2
  rw [Finset.sum_range_succ, ← add_assoc]
  exact this

/-! ## Blocks -/

/-- States of an oscillator that differ at most in the remembered table and in whole periods of phase. -/
structure WaveRel (t : Table) (s m : WaveSt) : Prop where
  left : s.hint ≤ t.length - 3
  right : m.hint ≤ t.length - 3
  sd : s.sd = m.sd
  hash : s.hash = m.hash
  initial : s.initial = m.initial
  phase : Int.fract s.phase = Int.fract m.phase

theorem WaveRel.atL {t : Table} {s m : WaveSt} (h : WaveRel t s m) : At t s m.phase m.sd := ⟨h.left, h.sd, h.phase⟩
theorem WaveRel.atR {t : Table} {s m : WaveSt} (h : WaveRel t s m) : At t m m.phase m.sd := ⟨h.right, rfl, rfl⟩

theorem waveRel_reset {t : Table} (rnd : Nat → ℝ) {s m : WaveSt} (h : WaveRel t s m) : WaveRel t (WaveSt.reset rnd s) (WaveSt.reset rnd m) := by
  refine ⟨h.left, h.right, h.sd, h.hash, h.initial, ?_⟩
  unfold WaveSt.reset
  rw [h.initial, h.hash]

theorem waveRel_tick {t : Table} (ht : Valid t) (o : Nat) {s m : WaveSt} (x : Frame ℝ 1) (h : WaveRel t s m) :
    WaveRel t (WaveSt.tick t o s x).1 (WaveSt.tick t o m x).1 ∧ (WaveSt.tick t o s x).2 = (WaveSt.tick t o m x).2 := by
  obtain ⟨a, b, c, _⟩ := wave_tick ht o h.atL x
  obtain ⟨a', b', c', _⟩ := wave_tick ht o h.atR x
  refine ⟨⟨a.hint, a'.hint, a.sd.trans a'.sd.symm, h.hash, h.initial, a.phase.trans a'.phase.symm⟩, ?_⟩
  funext k
  by_cases hk : k = 0
  · subst hk; exact heard_unique t ht _ _ b b'
  · rw [c k hk, c' k hk]

theorem process_keeps (t : Table) (o : Nat) (s : WaveSt) (size : Nat) (inp : Buf ℝ 1) (out : Buf ℝ (o + 1)) :
    (WaveSt.process t o s size inp out).1.hash = s.hash ∧ (WaveSt.process t o s size inp out).1.initial = s.initial := by
  have h1 : ∀ (u : WaveSt) x, (u.hash = s.hash ∧ u.initial = s.initial) → ((WaveSt.item t o u x).1.hash = s.hash ∧ (WaveSt.item t o u x).1.initial = s.initial) :=
    fun u x h => h
  have h2 : ∀ (u : WaveSt) x, (u.hash = s.hash ∧ u.initial = s.initial) → ((WaveSt.tick t o u x).1.hash = s.hash ∧ (WaveSt.tick t o u x).1.initial = s.initial) :=
    fun u x h => h
  exact tickLoop_inv (P := fun u : WaveSt => u.hash = s.hash ∧ u.initial = s.initial) h2 _ _ _ _ _
    (itemLoop_inv (P := fun u : WaveSt => u.hash = s.hash ∧ u.initial = s.initial) h1 inp (fullSimdItems size) 0 s out ⟨rfl, rfl⟩)

theorem ticks_keep (t : Table) (rnd : Nat → ℝ) (o : Nat) (s : WaveSt) (w : Nat → Frame ℝ 1) (n : Nat) :
    WaveSt.hash ((waveSynth t rnd o).ticks.st s w n) = s.hash ∧ WaveSt.initial ((waveSynth t rnd o).ticks.st s w n) = s.initial := by
  induction n with
  | zero => exact ⟨rfl, rfl⟩
  | succ n ih => exact ih

/-- The frequency is the same, up to sign, within each whole group of eight samples of a block. -/
def Steady (size : Nat) (f : Nat → ℝ) : Prop := ∀ k, k < size → |f k| = |f (head size k)|

theorem head_lt {size k : Nat} (h : k < size) : head size k < size := by unfold head; split <;> omega

theorem phaseAt_congr (φ sd : ℝ) {f f' : Nat → ℝ} {n : Nat} (h : ∀ k, k ≤ n → f k = f' k) : phaseAt φ sd f n = phaseAt φ sd f' n := by
  unfold phaseAt
  congr 2
  exact Finset.sum_congr rfl fun k hk => by rw [h k (by have := Finset.mem_range.1 hk; omega)]

theorem wave_proc {t : Table} (ht : Valid t) (rnd : Nat → ℝ) (o : Nat) {s m : WaveSt} (size : Nat) (inp : Buf ℝ 1) (out : Buf ℝ (o + 1)) (v : Nat → Frame ℝ 1)
    (hin : ∀ k, k < size → inp.frame k = v k) (hG : Steady size (fun k => v k 0)) (h : WaveRel t s m) :
    WaveRel t (WaveSt.process t o s size inp out).1 ((waveSynth t rnd o).ticks.st m v size) ∧
      ∀ k, k < size → (WaveSt.process t o s size inp out).2.frame k = (waveSynth t rnd o).ticks.out m v k := by
  have hin' : ∀ k, k < size → inp 0 k = v k 0 := fun k hk => congrFun (hin k hk) 0
  obtain ⟨a, b⟩ := C74_process ht o h.atL size inp out
  have a' := wave_st ht rnd o h.atR v size
  have hk := process_keeps t o s size inp out
  have hk' := ticks_keep t rnd o m v size
  have es : ∑ k ∈ Finset.range size, inp 0 k * m.sd = ∑ k ∈ Finset.range size, v k 0 * m.sd :=
    Finset.sum_congr rfl fun k hk => by rw [hin' k (Finset.mem_range.1 hk)]
  rw [es] at a
  refine ⟨⟨a.hint, a'.hint, a.sd.trans a'.sd.symm, ?_, ?_, a.phase.trans a'.phase.symm⟩, fun k hk => ?_⟩
  · rw [hk.1, hk'.1]; exact h.hash
  · rw [hk.2, hk'.2]; exact h.initial
  · have p1 := b k hk
    have p2 := wave_out ht rnd o h.atR v k
    unfold Plays at p1
    rw [phaseAt_congr _ _ (f' := fun k => v k 0) (fun j hj => hin' j (by omega))] at p1
    refine Plays.unique ht (f' := fun k => v k 0) p1 p2 ?_
    rw [hin' _ (head_lt hk)]
    exact (hG k hk).symm

theorem wave_relOn {t : Table} (ht : Valid t) (rnd : Nat → ℝ) (o : Nat) :
    RelOn (waveSynth t rnd o) (fun size v => Steady size (fun k => v k 0)) (WaveRel t) :=
  ⟨fun _ _ h => waveRel_reset rnd h, fun _ _ x h => waveRel_tick ht o x h, fun _ _ _ size inp out v _ hin hG h => wave_proc ht rnd o size inp out v hin hG h⟩

theorem wave_sameOn {t : Table} (ht : Valid t) (rnd : Nat → ℝ) (o : Nat) : SameOn (waveSynth t rnd o) (WaveRel t) := by
  refine ⟨fun _ _ h => waveRel_reset rnd h, fun _ _ x h => waveRel_tick ht o x h, ?_⟩
  intro g s m size inp inp' out out' _ hin hR
  have hin' : ∀ k, k < size → inp 0 k = inp' 0 k := fun k hk => congrFun (hin k hk) 0
  obtain ⟨a, b⟩ := C74_process ht o hR.atL size inp out
  obtain ⟨a', b'⟩ := C74_process ht o hR.atR size inp' out'
  have es : ∑ k ∈ Finset.range size, inp 0 k * WaveSt.sd m = ∑ k ∈ Finset.range size, inp' 0 k * WaveSt.sd m :=
    Finset.sum_congr rfl fun k hk => by rw [hin' k (Finset.mem_range.1 hk)]
  have k1 := process_keeps t o s size inp out
  have k2 := process_keeps t o m size inp' out'
  rw [es] at a
  refine ⟨⟨a.hint, a'.hint, a.sd.trans a'.sd.symm, ?_, ?_, a.phase.trans a'.phase.symm⟩, fun k hk => ?_⟩
  · exact k1.1.trans (hR.hash.trans k2.1.symm)
  · exact k1.2.trans (hR.initial.trans k2.2.symm)
  · have p1 := b k hk
    unfold Plays at p1
    rw [phaseAt_congr _ _ (f' := inp' 0) (fun j hj => hin' j (by omega)), hin' _ (head_lt hk)] at p1
    exact Plays.unique ht (f' := inp' 0) p1 (b' k hk) rfl

/-- Sample rate, hash and phase setting are those given when the oscillator was placed. -/
def WaveKept (t : Table) (sr : ℝ) (p : Option ℝ) (h : Nat) (s : WaveSt) : Prop := WaveRel t s ⟨s.phase, h, p, 0, 1 / sr⟩

theorem wave_kept {t : Table} (ht : Valid t) (rnd : Nat → ℝ) (o : Nat) (sr : ℝ) (p : Option ℝ) (h : Nat) : KeptBy (waveSynth t rnd o) (WaveKept t sr p h) := by
  refine ⟨?_, ?_, ?_⟩
  · intro s hs; exact ⟨hs.left, Nat.zero_le _, hs.sd, hs.hash, hs.initial, rfl⟩
  · intro s x hs
    have := (wave_tick ht o hs.atL x).1
    exact ⟨this.hint, Nat.zero_le _, this.sd, hs.hash, hs.initial, rfl⟩
  · intro g s size inp out hs
    have := (C74_process ht o hs.atL size inp out).1
    have k := process_keeps t o s size inp out
    exact ⟨this.hint, Nat.zero_le _, this.sd, k.1.trans hs.hash, k.2.trans hs.initial, rfl⟩

theorem placed_kept (t : Table) (rnd : Nat → ℝ) (sr : ℝ) (p : Option ℝ) (h : Nat) : WaveKept t sr p h (placed rnd sr p h) := by
  rw [placed_eq]; exact ⟨Nat.zero_le _, Nat.zero_le _, rfl, rfl, rfl, rfl⟩

theorem placed_rel (t : Table) (rnd : Nat → ℝ) (sr : ℝ) (p : Option ℝ) (h : Nat) : WaveRel t (placed rnd sr p h) (placed rnd sr p h) := by
  rw [placed_eq]; exact ⟨Nat.zero_le _, Nat.zero_le _, rfl, rfl, rfl, rfl⟩

theorem wave_reset_rel {t : Table} (rnd : Nat → ℝ) {sr : ℝ} {p : Option ℝ} {h : Nat} {s : WaveSt} (hs : WaveKept t sr p h s) :
    WaveRel t (WaveSt.reset rnd s) (placed rnd sr p h) := by
  rw [placed_eq]
  refine ⟨hs.left, Nat.zero_le _, hs.sd, hs.hash, hs.initial, ?_⟩
  have e1 := hs.initial
  have e2 := hs.hash
  simp only at e1 e2
  unfold WaveSt.reset startPhase
  rw [e1, e2]
  cases p <;> rfl

/-- **C74.** Any schedule of ticks, blocks and resets gives the same samples as ticking, if within blocks the frequency is constant up to sign in
every whole group of eight samples. -/
theorem C74_block {t : Table} (ht : Valid t) (rnd : Nat → ℝ) (o : Nat) (sr : ℝ) (p : Option ℝ) (h : Nat) (w : Nat → Frame ℝ 1) (cs : List (Call ℝ 1 (o + 1)))
    (hc : ∀ c ∈ cs, c.ok) (hG : BlocksOk (fun size v => Steady size (fun k => v k 0)) w 0 cs) :
    ((waveSynth t rnd o).exec w cs 0 (placed rnd sr p h)).2 = ((waveSynth t rnd o).exec w (unblock cs) 0 (placed rnd sr p h)).2 :=
  (wave_relOn ht rnd o).exec w cs hc 0 _ _ hG (placed_rel t rnd sr p h)

/-- **C74.** Reset returns to the initial phase: afterwards the oscillator, ticked or in blocks, sounds like a new one. -/
theorem C74_reset {t : Table} (ht : Valid t) (rnd : Nat → ℝ) (o : Nat) (sr : ℝ) (p : Option ℝ) (h : Nat) : ResetFresh (waveSynth t rnd o) (placed rnd sr p h) :=
  (wave_sameOn ht rnd o).resetFresh (wave_kept ht rnd o sr p h) (placed_kept t rnd sr p h) (fun _ hs => wave_reset_rel rnd hs)

/-! ## Phase driven oscillator -/

/-- Distance travelled on the circle since the previous sample; half a period is assumed before the first one. -/
def travel (x : Nat → ℝ) : Nat → ℝ
  | 0 => 1 / 2
  | n + 1 => |x (n + 1) - x n - round (x (n + 1) - x n)|

theorem travel_le (x : Nat → ℝ) (n : Nat) : 0 ≤ travel x n ∧ travel x n ≤ 1 / 2 := by
  cases n with
  | zero => exact ⟨by norm_num [travel], le_refl _⟩
  | succ n => exact ⟨abs_nonneg _, abs_sub_round _⟩

theorem circle_dist (x y : ℝ) : min |Int.fract x - Int.fract y| (min |Int.fract x - 1 - Int.fract y| |Int.fract x + 1 - Int.fract y|) = |x - y - round (x - y)| := by
  have e : x - y = Int.fract x - Int.fract y + ((⌊x⌋ - ⌊y⌋ : ℤ) : ℝ) := by
    have := Int.fract_add_floor x; have := Int.fract_add_floor y; push_cast; linarith
  have h0 := Int.fract_nonneg x
  have h1 := Int.fract_lt_one x
  have h2 := Int.fract_nonneg y
  have h3 := Int.fract_lt_one y
  rw [e, round_add_intCast]
  generalize Int.fract x = a at *
  generalize Int.fract y = b at *
  have e2 : a - b + ((⌊x⌋ - ⌊y⌋ : ℤ) : ℝ) - ((round (a - b) + (⌊x⌋ - ⌊y⌋) : ℤ) : ℝ) = a - b - round (a - b) := by push_cast; ring
  rw [e2]
  apply le_antisymm
  · have hr1 := sub_half_lt_round (a - b)
    have hr2 := round_le_add_half (a - b)
    have l : (-2 : ℤ) < round (a - b) := by
      have : ((-2 : ℤ) : ℝ) < round (a - b) := by push_cast; linarith
      exact_mod_cast this
    have u : round (a - b) < (2 : ℤ) := by
      have : (round (a - b) : ℝ) < ((2 : ℤ) : ℝ) := by push_cast; linarith
      exact_mod_cast this
    have c : round (a - b) = -1 ∨ round (a - b) = 0 ∨ round (a - b) = 1 := by omega
    rcases c with c | c | c <;> rw [c]
    · refine (min_le_right _ _).trans ((min_le_right _ _).trans (le_of_eq ?_)); congr 1; push_cast; ring
    · refine (min_le_left _ _).trans (le_of_eq ?_); congr 1; push_cast; ring
    · refine (min_le_right _ _).trans ((min_le_left _ _).trans (le_of_eq ?_)); congr 1; push_cast; ring
  · refine le_min ?_ (le_min ?_ ?_)
    · have := round_le (a - b) 0; simpa using this
    · have := round_le (a - b) 1
      rw [show a - b - ((1 : ℤ) : ℝ) = a - 1 - b by push_cast; ring] at this; exact this
    · have := round_le (a - b) (-1)
      rw [show a - b - ((-1 : ℤ) : ℝ) = a + 1 - b by push_cast; ring] at this; exact this

/-- The state of a phase driven oscillator that was last given the phase `y`. -/
def PhaseAt (t : Table) (sr : ℝ) (y : Option ℝ) (s : PhaseSt) : Prop :=
  s.hint ≤ t.length - 3 ∧ s.sr = sr ∧ match y with | none => s.ready = false | some y => s.ready = true ∧ s.phase = Int.fract y

/-- Assumed distance to the previous phase. -/
def hop (y : Option ℝ) (x : ℝ) : ℝ := match y with | none => 1 / 2 | some y => |x - y - round (x - y)|

theorem phase_tick {t : Table} (ht : Valid t) {sr : ℝ} {y : Option ℝ} {s : PhaseSt} (hs : PhaseAt t sr y s) (x : Frame ℝ 1) :
    PhaseAt t sr (some (x 0)) (PhaseSt.tick t s x).1 ∧ Heard t (hop y (x 0) * sr) (Int.fract (x 0)) ((PhaseSt.tick t s x).2 0) ∧
      read t s.hint (hop y (x 0) * sr) (Int.fract (x 0)) ≠ none := by
  obtain ⟨h1, h2, h3⟩ := hs
  have e : (if s.ready then min |Int.fract (x 0) - s.phase| (min |Int.fract (x 0) - 1 - s.phase| |Int.fract (x 0) + 1 - s.phase|) else (0.5 : ℝ)) = hop y (x 0) := by
    cases y with
    | none => simp only at h3; rw [h3]; norm_num [hop]
    | some y => simp only at h3; rw [h3.1, h3.2, if_pos rfl, circle_dist]; rfl
  have hr := readD_heard ht h1 (hop y (x 0) * sr) (Int.fract (x 0)) (Int.fract_nonneg _) (Int.fract_lt_one _)
  have e2 : PhaseSt.tick t s x = ({ s with phase := Int.fract (x 0), ready := true, hint := (readD t s.hint (hop y (x 0) * sr) (Int.fract (x 0))).2 },
      fun _ => (readD t s.hint (hop y (x 0) * sr) (Int.fract (x 0))).1) := by
    rw [← e, ← h2]; rfl
  rw [e2]
  exact ⟨⟨hr.2.1, h2, rfl, rfl⟩, hr.1, hr.2.2.2⟩

theorem phase_st {t : Table} (ht : Valid t) {sr : ℝ} {s : PhaseSt} (hs : PhaseAt t sr none s) (w : Nat → Frame ℝ 1) (n : Nat) :
    PhaseAt t sr (match n with | 0 => none | n + 1 => some (w n 0)) ((phaseSynth t).ticks.st s w n) := by
  induction n with
  | zero => exact hs
  | succ n ih => exact (phase_tick ht ih (w n)).1

theorem phase_out {t : Table} (ht : Valid t) {sr : ℝ} {s : PhaseSt} (hs : PhaseAt t sr none s) (w : Nat → Frame ℝ 1) (n : Nat) :
    Heard t (travel (fun k => w k 0) n * sr) (Int.fract (w n 0)) ((phaseSynth t).stream s w n 0) := by
  have := (phase_tick ht (phase_st ht hs w n) (w n)).2.1
  cases n <;> exact this

/-- **C74.** The phase driven oscillator plays its table at the phase given by its input modulo one, choosing the table by the distance the phase
travelled on the circle, in either direction, since the previous sample; this frequency is never above half the sample rate. -/
theorem C74_phase {t : Table} (ht : Valid t) (sr : ℝ) (w : Nat → Frame ℝ 1) (n : Nat) :
    Heard t (travel (fun k => w k 0) n * sr) (Int.fract (w n 0)) ((phaseSynth t).stream (PhaseSt.new.setSampleRate sr) w n 0) ∧
    (0 ≤ sr → travel (fun k => w k 0) n * sr ≤ sr / 2) := by
  refine ⟨phase_out (s := PhaseSt.new.setSampleRate sr) ht ⟨Nat.zero_le _, rfl, rfl⟩ w n, fun h => ?_⟩
  have := mul_le_mul_of_nonneg_right (travel_le (fun k => w k 0) n).2 h
  linarith

/-- **C74.** Phase driven: no tick indexes outside a table. -/
theorem C74_phase_no_panic {t : Table} (ht : Valid t) (sr : ℝ) (w : Nat → Frame ℝ 1) (n : Nat) :
    read t (PhaseSt.hint ((phaseSynth t).ticks.st (PhaseSt.new.setSampleRate sr) w n)) (travel (fun k => w k 0) n * sr) (Int.fract (w n 0)) ≠ none := by
  have := (phase_tick ht (phase_st ht (s := PhaseSt.new.setSampleRate sr) ⟨Nat.zero_le _, rfl, rfl⟩ w n) (w n)).2.2
  cases n <;> exact this

theorem C74_phase_block (t : Table) : BlockEqualsTick (phaseSynth t) := (tickBlock_iff _).1 (tickBlock_ofTick _ _)

def PhaseRel (t : Table) (s m : PhaseSt) : Prop := ∃ sr y, PhaseAt t sr y s ∧ PhaseAt t sr y m

theorem phaseAt_fract {t : Table} {sr y : ℝ} {s : PhaseSt} (h : PhaseAt t sr (some y) s) : PhaseAt t sr (some s.phase) s := by
  obtain ⟨a, b, c, d⟩ := h
  refine ⟨a, b, c, ?_⟩
  rw [d, Int.fract_fract]

theorem phase_canon {t : Table} {s m : PhaseSt} (h : PhaseRel t s m) :
    s.hint ≤ t.length - 3 ∧ m.hint ≤ t.length - 3 ∧ s.sr = m.sr ∧ s.ready = m.ready ∧ (s.ready = true → s.phase = m.phase ∧ Int.fract s.phase = s.phase) := by
  obtain ⟨sr, y, ⟨a, b, c⟩, ⟨a', b', c'⟩⟩ := h
  cases y with
  | none => simp only at c c'; exact ⟨a, a', b.trans b'.symm, c.trans c'.symm, fun h => absurd h (by rw [c]; simp)⟩
  | some y => simp only at c c'; exact ⟨a, a', b.trans b'.symm, c.1.trans c'.1.symm, fun _ => ⟨c.2.trans c'.2.symm, by rw [c.2, Int.fract_fract]⟩⟩

theorem phaseRel_iff {t : Table} {s m : PhaseSt} : PhaseRel t s m ↔
    s.hint ≤ t.length - 3 ∧ m.hint ≤ t.length - 3 ∧ s.sr = m.sr ∧ s.ready = m.ready ∧ (s.ready = true → s.phase = m.phase ∧ Int.fract s.phase = s.phase) := by
  refine ⟨phase_canon, fun ⟨a, b, c, d, e⟩ => ?_⟩
  by_cases hr : s.ready = true
  · refine ⟨s.sr, some s.phase, ⟨a, rfl, hr, (e hr).2.symm⟩, b, c.symm, d ▸ hr, ?_⟩
    rw [(e hr).2, (e hr).1]
  · have hr' : s.ready = false := by simpa using hr
    exact ⟨s.sr, none, ⟨a, rfl, hr'⟩, b, c.symm, d ▸ hr'⟩

theorem phase_implements {t : Table} (ht : Valid t) : Implements (phaseSynth t) (phaseSynth t).ticks (PhaseRel t) := by
  refine implements_ofTick _ _ _ _ ?_
  rintro s m x ⟨sr, y, h1, h2⟩
  have a := phase_tick ht h1 x
  have b := phase_tick ht h2 x
  refine ⟨⟨sr, _, a.1, b.1⟩, ?_⟩
  funext k
  have hk : k = 0 := Fin.fin_one_eq_zero k
  subst hk
  exact heard_unique t ht _ _ a.2.1 b.2.1

theorem phase_reset_rel {t : Table} {s m : PhaseSt} (h : PhaseRel t s m) : PhaseRel t s.reset m.reset := by
  obtain ⟨sr, y, h1, h2⟩ := h
  exact ⟨sr, none, ⟨h1.1, h1.2.1, rfl⟩, ⟨h2.1, h2.2.1, rfl⟩⟩

theorem phase_sameOn {t : Table} (ht : Valid t) : SameOn (phaseSynth t) (PhaseRel t) := by
  refine sameOn_of_implements (fun _ _ h => phase_reset_rel h) (phase_implements ht) ?_ ?_
  · rintro s m ⟨sr, y, h1, h2⟩; exact ⟨sr, y, h2, h1⟩
  · intro s m u h1 h2
    obtain ⟨a, b, c, d, e⟩ := phaseRel_iff.1 h1
    obtain ⟨a', b', c', d', e'⟩ := phaseRel_iff.1 h2
    exact phaseRel_iff.2 ⟨a, b', c.trans c', d.trans d', fun hr => ⟨(e hr).1.trans (e' (d ▸ hr)).1, (e hr).2⟩⟩

def PhaseKept (t : Table) (sr : ℝ) (s : PhaseSt) : Prop := ∃ y, PhaseAt t sr y s

theorem phase_kept {t : Table} (ht : Valid t) (sr : ℝ) : KeptBy (phaseSynth t) (PhaseKept t sr) := by
  have ht1 : ∀ (s : PhaseSt) x, PhaseKept t sr s → PhaseKept t sr (PhaseSt.tick t s x).1 := fun s x ⟨y, h⟩ => ⟨_, (phase_tick ht h x).1⟩
  refine ⟨?_, ht1, ?_⟩
  · rintro s ⟨y, h⟩; exact ⟨none, h.1, h.2.1, rfl⟩
  · intro g s size inp out h
    exact tickLoop_inv (P := PhaseKept t sr) ht1 _ _ _ _ _ h

theorem phase_reset_new {t : Table} {sr : ℝ} {s : PhaseSt} (h : PhaseKept t sr s) : PhaseRel t s.reset (PhaseSt.new.setSampleRate sr) := by
  obtain ⟨y, h⟩ := h
  exact ⟨sr, none, ⟨h.1, h.2.1, rfl⟩, Nat.zero_le _, rfl, rfl⟩

/-- **C74.** Phase driven: reset is like new. -/
theorem C74_phase_reset {t : Table} (ht : Valid t) (sr : ℝ) : ResetFresh (phaseSynth t) (PhaseSt.new.setSampleRate sr) :=
  (phase_sameOn ht).resetFresh (phase_kept ht sr) ⟨none, Nat.zero_le _, rfl, rfl⟩ (fun _ h => phase_reset_new h)

/-! ## Pulse wave -/

/-- A pulse wave placed in a graph. -/
def pulsePlaced (t : Table) (rnd : Nat → ℝ) (sr : ℝ) (p : Option ℝ) (h : Nat) : (pulseWave t rnd).σ :=
  (((placed rnd sr p h, ()), ((), (((), ()), PhaseSt.new.setSampleRate sr))), ((), ()))

/-- **C74.** The pulse wave is the difference of two readings of its table: one at the phase accumulated from the frequency input, the other ahead
of it by the pulse width. -/
theorem C74_pulse {t : Table} (ht : Valid t) (rnd : Nat → ℝ) (sr : ℝ) (p : Option ℝ) (h : Nat) (w : Nat → Frame ℝ 2) (n : Nat) :
    ∃ φ : Nat → ℝ, (∀ k, φ k = Int.fract (startPhase rnd p h + (∑ j ∈ Finset.range (k + 1), w j 0) / sr)) ∧
    ∃ a b, Heard t |w n 0| (φ n) a ∧ Heard t (travel (fun k => φ k + w k 1) n * sr) (Int.fract (φ n + w n 1)) b ∧
      (pulseWave t rnd).stream (pulsePlaced t rnd sr p h) w n 0 = a - b := by
  refine ⟨fun k => Int.fract (startPhase rnd p h + (∑ j ∈ Finset.range (k + 1), w j 0) / sr), fun _ => rfl, ?_⟩
  set φ := fun k => Int.fract (startPhase rnd p h + (∑ j ∈ Finset.range (k + 1), w j 0) / sr) with hφ
  have hw := fun n => C74_wave ht rnd 1 sr p h (fun k _ => w k 0) n
  have hp := (C74_phase ht sr (fun k _ => φ k + w k 1) n).1
  refine ⟨_, _, (hw n).1, hp, ?_⟩
  have e1 : (carrier t rnd).stream (placed rnd sr p h, ()) w =
      fun k => Frame.join ((waveSynth t rnd 1).stream (placed rnd sr p h) (fun k _ => w k 0) k) (fun _ => w k 1) := by
    funext k
    refine (stack_out (waveSynth t rnd 1) (multiPass 1) (placed rnd sr p h) () w k).trans ?_
    congr 1
    · congr 1; funext j c; have : c = 0 := Fin.fin_one_eq_zero c
      subst this; rfl
    · funext c; have : c = 0 := Fin.fin_one_eq_zero c
      subst this; rfl
  have e2 : (shifted t).stream (((), ()), PhaseSt.new.setSampleRate sr)
      (fun k => (Frame.takeR (((carrier t rnd).stream (placed rnd sr p h, ()) w k : Frame ℝ 3) : Frame ℝ (1 + (1 + 1))) : Frame ℝ (1 + 1))) n 0 =
      (phaseSynth t).stream (PhaseSt.new.setSampleRate sr) (fun k _ => φ k + w k 1) n 0 := by
    refine (congrFun (pipe_out (binop (· + ·) (multiPass 1) (multiPass 1)) (phaseSynth t) ((), ()) (PhaseSt.new.setSampleRate sr) _ n) 0).trans ?_
    refine congrFun (congrArg (fun v => (phaseSynth t).stream (PhaseSt.new.setSampleRate sr) v n) ?_) 0
    funext k c
    refine (congrFun (binop_out (· + ·) (multiPass 1) (multiPass 1) () () _ k) c).trans ?_
    have hc : c = 0 := Fin.fin_one_eq_zero c
    subst hc
    show (carrier t rnd).stream (placed rnd sr p h, ()) w k 1 + (carrier t rnd).stream (placed rnd sr p h, ()) w k 2 = _
    rw [e1]
    exact congrArg (· + w k 1) ((hw k).2 1 (by decide))
  have e3 : ∀ c, (pipe (i := 2) (j := 3) (o := 2) (carrier t rnd) (voices t)).stream ((placed rnd sr p h, ()), ((), (((), ()), PhaseSt.new.setSampleRate sr))) w n c = _ :=
    fun c => (congrFun (pipe_out (i := 2) (j := 3) (o := 2) (carrier t rnd) (voices t) (placed rnd sr p h, ()) ((), (((), ()), PhaseSt.new.setSampleRate sr)) w n) c).trans
      (congrFun (stack_out (multiPass 1) (shifted t) () (((), ()), PhaseSt.new.setSampleRate sr) _ n) c)
  refine (congrFun (pipe_out (j := 2) (pipe (i := 2) (j := 3) (carrier t rnd) (voices t)) (binop (· - ·) (multiPass 1) (multiPass 1))
    ((placed rnd sr p h, ()), ((), (((), ()), PhaseSt.new.setSampleRate sr))) ((), ()) w n) 0).trans ?_
  refine (congrFun (binop_out (· - ·) (multiPass 1) (multiPass 1) () () _ n) 0).trans ?_
  refine congrArg₂ (· - ·) ((e3 0).trans ?_) ((e3 1).trans ?_)
  · show (carrier t rnd).stream (placed rnd sr p h, ()) w n 0 = _
    rw [e1]; rfl
  · exact e2

def pulseRel (t : Table) (rnd : Nat → ℝ) (s m : (pulseWave t rnd).σ) : Prop :=
  ((WaveRel t s.1.1.1 m.1.1.1 ∧ True) ∧ True ∧ True ∧ PhaseRel t s.1.2.2.2 m.1.2.2.2) ∧ True

theorem pass_implements (n : Nat) : Implements (multiPass n : Node ℝ n n) (multiPass n).ticks (fun _ _ => True) :=
  implements_subsingleton (tickBlock_multiPass n) (fun _ _ => rfl)

theorem binop_implements (op : ℝ → ℝ → ℝ) : Implements (binop op (multiPass 1) (multiPass 1)) (binop op (multiPass 1) (multiPass 1)).ticks (fun _ _ => True) :=
  implements_subsingleton (tickBlock_binop op (tickBlock_multiPass 1) (tickBlock_multiPass 1)) (fun _ _ => Subsingleton.elim (α := Unit × Unit) _ _)

theorem pulse_relOn {t : Table} (ht : Valid t) (rnd : Nat → ℝ) : RelOn (pulseWave t rnd) (fun size v => Steady size (fun k => v k 0)) (pulseRel t rnd) := by
  have hpass := relOn_of_implements (fun _ _ h => h) (pass_implements 1)
  have hadd := relOn_of_implements (fun _ _ h => h) (binop_implements (· + ·))
  have hsub := relOn_of_implements (fun _ _ h => h) (binop_implements (· - ·))
  have hph := relOn_of_implements (fun _ _ h => phase_reset_rel h) (phase_implements ht)
  exact RelOn.pipe (RelOn.pipe (RelOn.stack (wave_relOn ht rnd 1) hpass) (RelOn.stack hpass (RelOn.pipe hadd hph))) hsub

theorem pulse_sameOn {t : Table} (ht : Valid t) (rnd : Nat → ℝ) : SameOn (pulseWave t rnd) (pulseRel t rnd) := by
  have hpass := sameOn_of_implements (fun _ _ h => h) (pass_implements 1) (fun _ _ h => h) (fun _ _ _ _ h => h)
  have hadd := sameOn_of_implements (fun _ _ h => h) (binop_implements (· + ·)) (fun _ _ h => h) (fun _ _ _ _ h => h)
  have hsub := sameOn_of_implements (fun _ _ h => h) (binop_implements (· - ·)) (fun _ _ h => h) (fun _ _ _ _ h => h)
  have h1 := SameOn.pipe hadd (phase_sameOn ht)
  have h2 := SameOn.stack hpass h1
  have h3 := SameOn.stack (wave_sameOn ht rnd 1) hpass
  exact SameOn.pipe (SameOn.pipe (i := 2) (j := 3) (o := 2) h3 h2) hsub

def pulseKept (t : Table) (rnd : Nat → ℝ) (sr : ℝ) (p : Option ℝ) (h : Nat) (s : (pulseWave t rnd).σ) : Prop :=
  ((WaveKept t sr p h s.1.1.1 ∧ True) ∧ True ∧ True ∧ PhaseKept t sr s.1.2.2.2) ∧ True

theorem pulse_kept {t : Table} (ht : Valid t) (rnd : Nat → ℝ) (sr : ℝ) (p : Option ℝ) (h : Nat) : KeptBy (pulseWave t rnd) (pulseKept t rnd sr p h) := by
  have h1 := KeptBy.pipe (keptBy_trivial (binop (· + ·) (multiPass 1) (multiPass 1))) (phase_kept ht sr)
  have h2 := KeptBy.stack (keptBy_trivial (multiPass 1)) h1
  have h3 := KeptBy.stack (wave_kept ht rnd 1 sr p h) (keptBy_trivial (multiPass 1))
  exact KeptBy.pipe (KeptBy.pipe (i := 2) (j := 3) (o := 2) h3 h2) (keptBy_trivial (binop (· - ·) (multiPass 1) (multiPass 1)))

/-- **C74.** Pulse wave: blocks agree with ticking if the frequency is constant up to sign in each whole group of eight samples; the width may vary freely. -/
theorem C74_pulse_block {t : Table} (ht : Valid t) (rnd : Nat → ℝ) (sr : ℝ) (p : Option ℝ) (h : Nat) (w : Nat → Frame ℝ 2) (cs : List (Call ℝ 2 1))
    (hc : ∀ c ∈ cs, c.ok) (hG : BlocksOk (fun size v => Steady size (fun k => v k 0)) w 0 cs) :
    ((pulseWave t rnd).exec w cs 0 (pulsePlaced t rnd sr p h)).2 = ((pulseWave t rnd).exec w (unblock cs) 0 (pulsePlaced t rnd sr p h)).2 :=
  (pulse_relOn ht rnd).exec w cs hc 0 _ _ hG
    ⟨⟨⟨placed_rel t rnd sr p h, trivial⟩, trivial, trivial, sr, none, ⟨Nat.zero_le _, rfl, rfl⟩, Nat.zero_le _, rfl, rfl⟩, trivial⟩

/-- **C74.** Pulse wave: reset is like new. -/
theorem C74_pulse_reset {t : Table} (ht : Valid t) (rnd : Nat → ℝ) (sr : ℝ) (p : Option ℝ) (h : Nat) : ResetFresh (pulseWave t rnd) (pulsePlaced t rnd sr p h) :=
  (pulse_sameOn ht rnd).resetFresh (pulse_kept ht rnd sr p h) ⟨⟨⟨placed_kept t rnd sr p h, trivial⟩, trivial, trivial, none, Nat.zero_le _, rfl, rfl⟩, trivial⟩
    (fun _ hs => ⟨⟨⟨wave_reset_rel rnd hs.1.1.1, trivial⟩, trivial, trivial, phase_reset_new hs.1.2.2.2⟩, trivial⟩)


/-! ## Where blocks differ from ticks, and where reset differs from new -/

theorem two_at (i : Nat) (f b : ℝ) (h : small[i]? = some (f, [0, b])) : at' small i (1 / 4) = some (b * (0.4656725512077848 + 0.03432729708429672)) := by
  rw [C62_at small small_valid i (f, [0, b]) h (1 / 4) (by norm_num) (by norm_num) 0 (by norm_num) (by norm_num)]
  congr 1
  have e : periodic [0, b] 0 = 0 ∧ periodic [0, b] 1 = b := ⟨rfl, rfl⟩
  have e2 : periodic [0, b] (-1) = b ∧ periodic [0, b] 2 = 0 := ⟨rfl, by simp [periodic]⟩
  simp only [Nat.cast_zero, zero_sub, zero_add, e, e2, List.length_cons, List.length_nil]
  unfold optimal4
  norm_num
  ring

theorem small_at : at' small 1 (1 / 4) = some (2 * (0.4656725512077848 + 0.03432729708429672)) ∧
    at' small 2 (1 / 4) = some (3 * (0.4656725512077848 + 0.03432729708429672)) :=
  ⟨two_at 1 200 2 rfl, two_at 2 400 3 rfl⟩

/-- A click of frequency: silent at the first sample of a group, 300 Hz at the second. -/
def click (k : Nat) : Frame ℝ 1 := fun _ => if k = 1 then 300 else 0

theorem click_phase (f : Nat → ℝ) (h : ∀ k, k < 2 → f k = click k 0) : phaseAt 0 (1 / 1200) f 1 = 1 / 4 := by
  unfold phaseAt
  rw [Finset.sum_range_succ, Finset.sum_range_one, h 0 (by omega), h 1 (by omega)]
  norm_num [click]

/-- **C74, block versus tick.** A frequency that changes within a group of eight samples makes the block read another table than ticking does:
the table is chosen by the first sample of the group. -/
theorem C74_violation_block : ∃ (t : Table) (_ : Valid t) (rnd : Nat → ℝ) (cs : List (Call ℝ 1 1)), (∀ c ∈ cs, c.ok) ∧
    ((waveSynth t rnd 0).exec click cs 0 (placed rnd 1200 (some 0) 0)).2 ≠ ((waveSynth t rnd 0).exec click (unblock cs) 0 (placed rnd 1200 (some 0) 0)).2 := by
  refine ⟨small, small_valid, fun _ => 0, [.block 8 (fun _ _ => 0) (fun _ _ => 0) (fun _ _ _ => 0)], ?_, ?_⟩
  · intro c hc; rw [List.mem_singleton] at hc; subst hc; show 8 ≤ 64; omega
  · refine exec_block_ne (n := waveSynth small (fun _ => 0) 0) click _ 8 _ _ _ 1 (by omega) (fun e => ?_)
    have hb := ((C74_process small_valid 0 (placed_at small (fun _ => 0) 1200 (some 0) 0) 8 (blockInput click 0 8 (fun _ _ => 0)) (fun _ _ => 0)).2 1 (by omega)).1
    have ht := (wave_out small_valid (fun _ => 0) 0 (placed_at small (fun _ => 0) 1200 (some 0) 0) click 1).1
    have p0 : startPhase (fun _ => 0) (some 0) 0 = 0 := rfl
    rw [p0, click_phase _ (fun k hk => by interval_cases k <;> rfl)] at hb
    rw [p0, click_phase _ (fun _ _ => rfl)] at ht
    have v1 := heard_unique small small_valid _ _ hb (Heard.below _ (by norm_num [pitch, small, blockInput, head, fullSimdItems, click]) small_at.1)
    have v2 := heard_unique small small_valid _ _ ht (Heard.above _ (by norm_num [pitch, small, click]) small_at.2)
    have e2 : ((WaveSt.process small 0 (placed (fun _ => 0) 1200 (some 0) 0) 8 (blockInput click 0 8 (fun _ _ => 0)) (fun _ _ => 0)).2.frame 1 0) =
        (waveSynth small (fun _ => 0) 0).stream (placed (fun _ => 0) 1200 (some 0) 0) click 1 0 := congrFun e 0
    have e3 := v1.symm.trans (e2.trans v2)
    norm_num at e3

/-- `rnd1`: `math.rs:529-536`, of small integers. -/
def rnd1 (x : Nat) : ℝ := ((Hash.rnd1Word (BitVec.ofNat 64 x)) >>> 11).toNat / 2 ^ 53

/-- **C74, reset versus new.** An oscillator used on its own, without a combinator to give it a hash, starts at phase zero but resets to a
pseudorandom phase. -/
theorem C74_violation_reset : ¬ ResetFresh (waveSynth small rnd1 1) WaveSt.new := by
  intro h
  have h1 := h (fun _ _ => 0) (fun _ _ => 0) [] [.tick] (by simp) (by intro c hc; rw [List.mem_singleton] at hc; subst hc; trivial)
  have h2 : (WaveSt.tick small 1 (WaveSt.reset rnd1 WaveSt.new) (fun _ => 0)).2 1 = (WaveSt.tick small 1 WaveSt.new (fun _ => 0)).2 1 :=
    congrFun (List.cons.inj h1).1 1
  have a := (wave_tick small_valid 1 (s := WaveSt.reset rnd1 WaveSt.new) (φ := rnd1 0) ⟨Nat.zero_le _, rfl, rfl⟩ (fun _ => 0)).2.2.1 1 (by decide)
  have b := (wave_tick small_valid 1 (s := WaveSt.new) (φ := 0) ⟨Nat.zero_le _, rfl, rfl⟩ (fun _ => 0)).2.2.1 1 (by decide)
  rw [a, b] at h2
  have hr : rnd1 0 = 8944485019013424 / 2 ^ 53 := by
    unfold rnd1
    rw [show ((Hash.rnd1Word (BitVec.ofNat 64 0)) >>> 11).toNat = 8944485019013424 from by decide +kernel]
    norm_num
  rw [hr] at h2
  norm_num at h2

/-- The hypotheses are met by the small table and a schedule with blocks of steady frequency. -/
example : Valid small ∧ BlocksOk (i := 1) (o := 1) (fun size v => Steady size (fun k => v k 0)) (fun k _ => if k < 8 then 110 else 220) 0
    [.block 8 (fun _ _ => 0) (fun _ _ => 0) (fun _ _ _ => 0), .tick, .reset, .block 3 (fun _ _ => 0) (fun _ _ => 0) (fun _ _ _ => 0)] := by
  refine ⟨small_valid, ?_, ?_, trivial⟩
  · intro k hk
    have h := head_lt hk
    simp only [Nat.zero_add]
    rw [if_pos (show k < 8 from hk), if_pos (show head 8 k < 8 from h)]
  · intro k hk
    have h := head_lt hk
    simp only [Nat.zero_add]
    rw [if_neg (by omega), if_neg (by omega)]

end Fundsp.Wt
