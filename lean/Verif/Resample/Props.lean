import Verif.Resample.Model
import Verif.Core.ResetProps
import Verif.Math.Props

/-!
# Resampling and oversampling: properties C63 and C64
-/

noncomputable section
namespace Fundsp.Rs

variable {i o : Nat}

theorem and127 (n : Nat) : n &&& 0x7f = n % 128 := Nat.and_two_pow_sub_one_eq_mod n 7

/-! ## Resampler -/

/-- The stream of a generator. -/
abbrev gen (X : Node ℝ 0 o) (x : X.σ) : Nat → Frame ℝ o := X.stream x (fun _ _ => 0)

/-- The position in the source after `k + 1` samples at the given speeds. -/
def position (speed : Nat → ℝ) : Nat → ℝ
  | 0 => 1
  | k + 1 => position speed k + max 0 (speed k)

theorem position_ge (speed : Nat → ℝ) (k : Nat) : 1 ≤ position speed k := by
  induction k with
  | zero => exact le_refl _
  | succ k ih => exact le_trans ih (le_add_of_nonneg_right (le_max_left _ _))

theorem position_mono (speed : Nat → ℝ) (k : Nat) : position speed k ≤ position speed (k + 1) := le_add_of_nonneg_right (le_max_left _ _)

/-- The ring holds the last produced samples. -/
structure Holds (X : Node ℝ 0 o) (x0 : X.σ) (s : ResSt X.σ o) : Prop where
  x : s.x = X.ticks.st x0 (fun _ _ => 0) s.producer
  buffer : ∀ c m, m < s.producer → s.producer ≤ m + 128 → s.buffer c (m % 128) = gen X x0 m c

theorem produce_holds (X : Node ℝ 0 o) (x0 : X.σ) : ∀ m s, Holds X x0 s →
    Holds X x0 (produce X m s) ∧ (produce X m s).producer = s.producer + m ∧ (produce X m s).consumer = s.consumer := by
  intro m
  induction m with
  | zero => intro s h; exact ⟨h, rfl, rfl⟩
  | succ m ih =>
    intro s h
    have hs : Holds X x0 ⟨(X.tick s.x (fun _ => 0)).1, s.buffer.write (s.producer &&& 0x7f) (X.tick s.x (fun _ => 0)).2, s.consumer, s.producer + 1⟩ := by
      refine ⟨?_, fun c k h1 h2 => ?_⟩
      · show (X.tick s.x (fun _ => 0)).1 = (X.tick (X.ticks.st x0 (fun _ _ => 0) s.producer) (fun _ => 0)).1
        rw [← h.x]
      · simp only at h1 h2
        show (if k % 128 = s.producer &&& 0x7f then _ else _) = _
        rw [and127]
        by_cases hk : k = s.producer
        · subst hk
          rw [if_pos rfl, h.x]; rfl
        · rw [if_neg (by omega)]
          exact h.buffer c k (by omega) (by omega)
    obtain ⟨h1, h2, h3⟩ := ih _ hs
    exact ⟨h1, by rw [show (produce X (m + 1) s).producer = _ from h2]; simp only; omega, h3⟩

/-- The state before sample `k`. -/
theorem res_state (X : Node ℝ 0 o) (x0 : X.σ) (b : Rings o) (w : Nat → Frame ℝ 1) (k : Nat) :
    Holds X x0 ((resampler X).ticks.st (⟨x0, b, 1, 0⟩ : ResSt X.σ o) w k) ∧
      ((resampler X).ticks.st (⟨x0, b, 1, 0⟩ : ResSt X.σ o) w k : ResSt X.σ o).consumer = position (fun k => w k 0) k ∧
      ((resampler X).ticks.st (⟨x0, b, 1, 0⟩ : ResSt X.σ o) w k : ResSt X.σ o).producer = if k = 0 then 0 else ⌊position (fun k => w k 0) k⌋₊ + 3 := by
  induction k with
  | zero => exact ⟨⟨rfl, fun c m h => by simp only [Mealy.st] at h; omega⟩, rfl, rfl⟩
  | succ k ih =>
    obtain ⟨h1, h2, h3⟩ := ih
    change Holds X x0 (resTick X _ (w k)).1 ∧ (resTick X _ (w k)).1.consumer = _ ∧ (resTick X _ (w k)).1.producer = _
    generalize ((resampler X).ticks.st (⟨x0, b, 1, 0⟩ : ResSt X.σ o) w k) = s at h1 h2 h3
    change Holds X x0 (s : ResSt X.σ o) at h1
    unfold resTick
    simp only
    have hs : Holds X x0 ⟨s.x, s.buffer, s.consumer + max 0 (w k 0), s.producer⟩ := ⟨h1.x, h1.buffer⟩
    have hp : s.consumer + max 0 (w k 0) = position (fun k => w k 0) (k + 1) := by rw [h2]; rfl
    rw [hp] at hs ⊢
    have hd : position (fun k => w k 0) (k + 1) - (position (fun k => w k 0) (k + 1) - (⌊position (fun k => w k 0) (k + 1)⌋ : ℝ)) = ⌊position (fun k => w k 0) (k + 1)⌋ := by ring
    rw [hd, show ⌊((⌊position (fun k => w k 0) (k + 1)⌋ : ℤ) : ℝ)⌋₊ = ⌊position (fun k => w k 0) (k + 1)⌋₊ by
      rw [← Int.floor_toNat, Int.floor_intCast, Int.floor_toNat]]
    obtain ⟨a1, a2, a3⟩ := produce_holds X x0 (⌊position (fun k => w k 0) (k + 1)⌋₊ + 3 - s.producer) _ hs
    refine ⟨a1, a3, ?_⟩
    rw [a2, if_neg (by omega)]
    simp only
    have : s.producer ≤ ⌊position (fun k => w k 0) (k + 1)⌋₊ + 3 := by
      rw [h3]
      split
      · omega
      · have := Nat.floor_le_floor (position_mono (fun k => w k 0) k)
        omega
    omega

theorem position_eq (speed : Nat → ℝ) (k : Nat) : position speed k = 1 + ∑ j ∈ Finset.range k, max 0 (speed j) := by
  induction k with
  | zero => simp [position]
  | succ k ih => rw [position, ih, Finset.sum_range_succ]; ring

theorem res_reads (X : Node ℝ 0 o) (x0 : X.σ) (b : Rings o) (w : Nat → Frame ℝ 1) (k n : Nat) (p : ℝ)
    (hp : p = 1 + ∑ j ∈ Finset.range (k + 1), max 0 (w j 0)) (hn : (n : ℝ) ≤ p) (hn1 : p < n + 1) (c : Fin o) :
    (resampler X).stream (⟨x0, b, 1, 0⟩ : ResSt X.σ o) w k c
      = Math.spline (gen X x0 (n - 1) c) (gen X x0 n c) (gen X x0 (n + 1) c) (gen X x0 (n + 2) c) (p - n) ∧ 1 ≤ n := by
  rw [← position_eq (fun j => w j 0)] at hp
  have h1 := position_ge (fun j => w j 0) (k + 1)
  rw [← hp] at h1
  have hf : ⌊p⌋ = (n : ℤ) := Int.floor_eq_iff.2 ⟨by exact_mod_cast hn, by exact_mod_cast hn1⟩
  have hfn : ⌊p⌋₊ = n := by rw [← Int.floor_toNat, hf]; rfl
  have hn0 : 1 ≤ n := by
    by_contra h
    have : n = 0 := by omega
    rw [this] at hn1; norm_num at hn1; linarith
  refine ⟨?_, hn0⟩
  obtain ⟨g1, g2, g3⟩ := res_state X x0 b w (k + 1)
  change Holds X x0 (resTick X _ (w k)).1 at g1
  change (resTick X _ (w k)).1.producer = _ at g3
  rw [if_neg (by omega), ← hp, hfn] at g3
  obtain ⟨_, f2, _⟩ := res_state X x0 b w k
  change (resTick X _ (w k)).2 c = _
  generalize ((resampler X).ticks.st (⟨x0, b, 1, 0⟩ : ResSt X.σ o) w k) = s at g1 g3 f2
  change (s : ResSt X.σ o).consumer = _ at f2
  have hc : s.consumer + max 0 (w k 0) = p := by rw [f2, hp]; rfl
  have hb := g1.buffer c
  rw [g3] at hb
  clear g1 g3
  unfold resTick at hb ⊢
  simp only [hc, sub_sub_cancel, hf, Int.cast_natCast, Nat.floor_natCast, and127] at hb ⊢
  rw [show (n + 127) % 128 = (n - 1) % 128 by omega, hb _ (by omega) (by omega), hb _ (by omega) (by omega), hb _ (by omega) (by omega), hb _ (by omega) (by omega)]

theorem res_consumes (X : Node ℝ 0 o) (x0 : X.σ) (b : Rings o) (w : Nat → Frame ℝ 1) (k n : Nat) (p : ℝ)
    (hp : p = 1 + ∑ j ∈ Finset.range (k + 1), max 0 (w j 0)) (hn : (n : ℝ) ≤ p) (hn1 : p < n + 1) :
    ((resampler X).ticks.st (⟨x0, b, 1, 0⟩ : ResSt X.σ o) w (k + 1) : ResSt X.σ o).x = X.ticks.st x0 (fun _ _ => 0) (n + 3) := by
  rw [← position_eq (fun j => w j 0)] at hp
  have hf : ⌊p⌋ = (n : ℤ) := Int.floor_eq_iff.2 ⟨by exact_mod_cast hn, by exact_mod_cast hn1⟩
  have hfn : ⌊p⌋₊ = n := by rw [← Int.floor_toNat, hf]; rfl
  obtain ⟨g1, g2, g3⟩ := res_state X x0 b w (k + 1)
  rw [if_neg (by omega), ← hp, hfn] at g3
  rw [← g3]; exact g1.x

/-- C63. Whatever the speeds, negative ones counting as zero, sample `k` of the resampler interpolates the four samples of the source stream
around the position `p`, the sum of the speeds so far plus one. -/
theorem C63_reads (X : Node ℝ 0 o) (x0 : X.σ) (w : Nat → Frame ℝ 1) (k n : Nat) (p : ℝ)
    (hp : p = 1 + ∑ j ∈ Finset.range (k + 1), max 0 (w j 0)) (hn : (n : ℝ) ≤ p) (hn1 : p < n + 1) (c : Fin o) :
    (resampler X).stream (resNew X x0 : ResSt X.σ o) w k c
      = Math.spline (gen X x0 (n - 1) c) (gen X x0 n c) (gen X x0 (n + 1) c) (gen X x0 (n + 2) c) (p - n) ∧ 1 ≤ n :=
  res_reads X x0 _ w k n p hp hn hn1 c

/-- C63. After sample `k` at position `p` the source has been run for exactly `⌊p⌋ + 3` samples: enough to interpolate, and no more. -/
theorem C63_consumes (X : Node ℝ 0 o) (x0 : X.σ) (w : Nat → Frame ℝ 1) (k n : Nat) (p : ℝ)
    (hp : p = 1 + ∑ j ∈ Finset.range (k + 1), max 0 (w j 0)) (hn : (n : ℝ) ≤ p) (hn1 : p < n + 1) :
    ((resampler X).ticks.st (resNew X x0 : ResSt X.σ o) w (k + 1) : ResSt X.σ o).x = X.ticks.st x0 (fun _ _ => 0) (n + 3) :=
  res_consumes X x0 _ w k n p hp hn hn1

/-- C63. At a constant whole speed `m` the resampler plays every `m`th sample of the source exactly; sample `k` is source sample `m (k + 1) + 1`.
At speed one it plays the source from its third sample on. -/
theorem C63_whole (X : Node ℝ 0 o) (x0 : X.σ) (w : Nat → Frame ℝ 1) (m : Nat) (hw : ∀ k, w k 0 = m) (k : Nat) :
    (resampler X).stream (resNew X x0 : ResSt X.σ o) w k = gen X x0 (m * (k + 1) + 1) := by
  funext c
  have := (C63_reads X x0 w k (m * (k + 1) + 1) (1 + ∑ j ∈ Finset.range (k + 1), max 0 (w j 0)) rfl
    (by simp [hw]; linarith) (by simp [hw]; nlinarith) c).1
  rw [this]
  have : (1 + ∑ j ∈ Finset.range (k + 1), max 0 (w j 0)) - ((m * (k + 1) + 1 : Nat) : ℝ) = 0 := by
    simp [hw]; ring
  rw [this]
  simp [Math.spline]

theorem res_reached (X : Node ℝ 0 o) (x0 : X.σ) (s : (resampler X).σ) (h : Reached (resampler X) (resNew X x0 : ResSt X.σ o) s) :
    Reached X x0 (s : ResSt X.σ o).x := by
  have hpr : ∀ m (s : ResSt X.σ o), Reached X x0 s.x → Reached X x0 (produce X m s).x := by
    intro m
    induction m with
    | zero => intro s h; exact h
    | succ m ih => intro s h; exact ih _ (Reached.tick _ h)
  induction h with
  | init => exact Reached.init
  | tick x _ ih => exact hpr _ _ ih
  | reset _ ih => exact Reached.reset ih

/-- C63. Resetting starts over: with an inner node whose reset starts over, the output after a reset is that of a new resampler, whatever was
played before and however the calls are mixed. -/
theorem C63_reset (X : Node ℝ 0 o) (x0 : X.σ) (hX : ResetFresh X x0) : ResetFresh (resampler X) (resNew X x0 : ResSt X.σ o) := by
  refine TickFresh.ofTick ?_
  intro s hs w
  have hr := hX.tickFresh _ (res_reached X x0 s hs) (fun _ _ => 0)
  funext k c
  have h1 := position_ge (fun j => w j 0) (k + 1)
  have ha := Nat.floor_le (a := position (fun j => w j 0) (k + 1)) (by linarith)
  have hb := Nat.lt_floor_add_one (position (fun j => w j 0) (k + 1))
  have e1 := (res_reads X (X.reset (s : ResSt X.σ o).x) (s : ResSt X.σ o).buffer w k _ _ (position_eq (fun j => w j 0) (k + 1)) ha hb c).1
  have e2 := (res_reads X x0 (fun _ _ => 0) w k _ _ (position_eq (fun j => w j 0) (k + 1)) ha hb c).1
  refine e1.trans (Eq.trans ?_ e2.symm)
  unfold gen
  rw [hr]

/-- A source that counts its samples. -/
def counter : Node ℝ 0 1 := Node.ofTick Nat (fun _ => 0) (fun s _ => (s + 1, fun _ => (s : ℝ)))

theorem counter_gen (k : Nat) : gen counter (0 : Nat) k 0 = k := by
  have hs : ∀ k, counter.ticks.st (0 : Nat) (fun _ _ => 0) k = (k : Nat) := by
    intro k
    induction k with
    | zero => rfl
    | succ k ih => exact congrArg Nat.succ ih
  exact congrArg (fun n : Nat => (n : ℝ)) (hs k)

/-- The counting source at speed two. -/
example : (resampler counter).stream (resNew counter (0 : Nat) : ResSt Nat 1) (fun _ _ => 2) 4 0 = 11 := by
  have := congrFun (C63_whole counter (0 : Nat) (fun _ _ => 2) 2 (fun _ => by norm_num) 4) 0
  refine this.trans ((counter_gen _).trans (by norm_num))

/-- The counting source meets the hypothesis on resets. -/
example : ResetFresh (resampler counter) (resNew counter (0 : Nat) : ResSt Nat 1) :=
  C63_reset counter (0 : Nat) (TickFresh.ofTick (tickFresh_of_eq (fun _ => True) trivial (fun _ _ _ => trivial) (fun _ _ => rfl)))

/-- A position between samples: at speed one half the first position is 1.5. -/
example : (resampler counter).stream (resNew counter (0 : Nat) : ResSt Nat 1) (fun _ _ => 1 / 2) 0 0 = 3 / 2 := by
  have := (C63_reads counter (0 : Nat) (fun _ _ => 1 / 2) 0 1 (3 / 2) (by norm_num) (by norm_num) (by norm_num) 0).1
  refine this.trans ?_
  rw [counter_gen, counter_gen, counter_gen, counter_gen]
  norm_num [Math.spline]

/-! ## Oversampler -/

/-- The input with zeros inserted: sample `2 k` is input sample `k`. Zero before the start. -/
def stuffed (w : Nat → Frame ℝ i) (m : ℤ) (c : Fin i) : ℝ := if 0 ≤ m ∧ m % 2 = 0 then w (m / 2).toNat c else 0

/-- The input of the inner node: the zero stuffed input through the taps, times two. -/
def upsampled (h : Nat → ℝ) (w : Nat → Frame ℝ i) (m : Nat) : Frame ℝ i := fun c => 2 * ∑ k ∈ Finset.range 43, h k * stuffed w ((m : ℤ) - 42 + k) c

/-- A stream before its start is zero. -/
def extended (y : Nat → Frame ℝ o) (m : ℤ) (c : Fin o) : ℝ := if 0 ≤ m then y m.toNat c else 0

theorem sum_even_odd (f : Nat → ℝ) : ∑ k ∈ Finset.range 43, f k = (∑ k ∈ Finset.range 22, f (k * 2)) + ∑ k ∈ Finset.range 21, f (k * 2 + 1) := by
  have : ∀ n, ∑ k ∈ Finset.range (2 * n + 1), f k = (∑ k ∈ Finset.range (n + 1), f (k * 2)) + ∑ k ∈ Finset.range n, f (k * 2 + 1) := by
    intro n
    induction n with
    | zero => simp
    | succ n ih =>
      rw [show 2 * (n + 1) + 1 = 2 * n + 1 + 1 + 1 by ring, Finset.sum_range_succ, Finset.sum_range_succ, ih, Finset.sum_range_succ (n := n + 1),
        Finset.sum_range_succ (fun k => f (k * 2 + 1)),
        show 2 * n + 1 + 1 = (n + 1) * 2 by ring, show 2 * n + 1 = n * 2 + 1 by ring]
      ring
  exact this 21

/-- The rings after `n` samples at the doubled rate, started at index `j0`. -/
structure Ring (j0 n : Nat) (f : ℤ → ℝ) (v : Nat → ℝ) : Prop where
  get : ∀ m : ℤ, (n : ℤ) - 128 ≤ m → m < n → v (((j0 : ℤ) + m) % 128).toNat = f m

theorem Ring.write {j0 n : Nat} {f : ℤ → ℝ} {v : Nat → ℝ} (h : Ring j0 n f v) (x : ℝ) (hx : f n = x) (j : Nat) (hj : j = (j0 + n) % 128) :
    Ring j0 (n + 1) f (fun k => if k = j then x else v k) := by
  refine ⟨fun m h1 h2 => ?_⟩
  push_cast at h1 h2
  by_cases hm : m = n
  · rw [if_pos (by omega), hm, hx]
  · rw [if_neg (by omega)]
    exact h.get m (by omega) (by omega)

theorem Ring.even {j0 n : Nat} {i : Nat} {w : Nat → Frame ℝ i} {c : Fin i} {v : Nat → ℝ} (hr : Ring j0 (n + 1) (fun m => stuffed w m c) v) (hn : n % 2 = 0) (h : Nat → ℝ) (j : Nat)
    (hj : j = (j0 + n) % 128) : tickEven h v (j + 1) = upsampled h w n c := by
  unfold tickEven upsampled
  rw [sum_even_odd, mul_comm]
  congr 1
  rw [Finset.sum_eq_zero (s := Finset.range 21), add_zero]
  · refine Finset.sum_congr rfl (fun k hk => ?_)
    rw [Finset.mem_range] at hk
    rw [and127, mul_comm]
    congr 1
    rw [← hr.get _ (by push_cast; omega) (by push_cast; omega)]
    congr 1
    push_cast
    omega
  · intro k _
    unfold stuffed
    rw [if_neg (by push_cast; omega), mul_zero]

theorem Ring.odd {j0 n : Nat} {i : Nat} {w : Nat → Frame ℝ i} {c : Fin i} {v : Nat → ℝ} (hr : Ring j0 (n + 1) (fun m => stuffed w m c) v) (hn : n % 2 = 1) (h : Nat → ℝ) (j : Nat)
    (hj : j = (j0 + n) % 128) : tickOdd h v (j + 1) = upsampled h w n c := by
  unfold tickOdd upsampled
  rw [sum_even_odd, mul_comm]
  congr 1
  rw [Finset.sum_eq_zero (s := Finset.range 22), zero_add]
  · refine Finset.sum_congr rfl (fun k hk => ?_)
    rw [Finset.mem_range] at hk
    rw [and127, mul_comm]
    congr 1
    rw [← hr.get _ (by push_cast; omega) (by push_cast; omega)]
    congr 1
    push_cast
    omega
  · intro k _
    unfold stuffed
    rw [if_neg (by push_cast; omega), mul_zero]

theorem Ring.all {j0 n : Nat} {f : ℤ → ℝ} {v : Nat → ℝ} (hr : Ring j0 (n + 1) f v) (h : Nat → ℝ) (j : Nat)
    (hj : j = (j0 + n) % 128) : tickAll h v j = ∑ k ∈ Finset.range 43, h k * f ((n : ℤ) - 43 + k) := by
  unfold tickAll
  refine Finset.sum_congr rfl (fun k hk => ?_)
  rw [Finset.mem_range] at hk
  rw [and127, mul_comm]
  congr 1
  rw [← hr.get _ (by push_cast; omega) (by push_cast; omega)]
  congr 1
  omega

/-- The state before sample `k`. -/
structure OverInv (h : Nat → ℝ) (X : Node ℝ i o) (x0 : X.σ) (j0 : Nat) (w : Nat → Frame ℝ i) (k : Nat) (s : OverSt X.σ i o) : Prop where
  x : s.x = X.ticks.st x0 (upsampled h w) (2 * k)
  inv : ∀ c, Ring j0 (2 * k) (fun m => stuffed w m c) (s.inv c)
  outv : ∀ c, Ring j0 (2 * k) (fun m => extended (X.stream x0 (upsampled h w)) m c) (s.outv c)
  j : s.j = (j0 + 2 * k) % 128

theorem overInv_step (h : Nat → ℝ) (X : Node ℝ i o) (x0 : X.σ) (j0 : Nat) (w : Nat → Frame ℝ i) (k : Nat) (s : OverSt X.σ i o)
    (hs : OverInv h X x0 j0 w k s) : OverInv h X x0 j0 w (k + 1) (overTick h X s (w k)).1 ∧
      (overTick h X s (w k)).2 = fun c => ∑ m ∈ Finset.range 43, h m * extended (X.stream x0 (upsampled h w)) (2 * (k : ℤ) - 42 + m) c := by
  have hi : ∀ c, Ring j0 (2 * k + 1) (fun m => stuffed w m c) (s.inv.write s.j (w k) c) := fun c =>
    (hs.inv c).write _ (by show stuffed w _ c = _; unfold stuffed; rw [if_pos (by push_cast; omega)]; congr 2; push_cast; omega) _ hs.j
  have hr : X.tick s.x (fun c => tickEven h (s.inv.write s.j (w k) c) (s.j + 1)) = X.tick (X.ticks.st x0 (upsampled h w) (2 * k)) (upsampled h w (2 * k)) := by
    rw [← hs.x]
    congr 1
    funext c
    exact (hi c).even (by omega) h _ hs.j
  have ho : ∀ c, Ring j0 (2 * k + 1) (fun m => extended (X.stream x0 (upsampled h w)) m c)
      (s.outv.write s.j (X.tick s.x (fun c => tickEven h (s.inv.write s.j (w k) c) (s.j + 1))).2 c) := fun c =>
    (hs.outv c).write _ (by rw [hr]; show extended _ _ c = _; unfold extended; rw [if_pos (by push_cast; omega)]; rfl) _ hs.j
  have hj : (s.j + 1) &&& 0x7f = (j0 + (2 * k + 1)) % 128 := by rw [and127, hs.j]; omega
  have hi' : ∀ c, Ring j0 (2 * k + 1 + 1) (fun m => stuffed w m c) ((s.inv.write s.j (w k)).write ((s.j + 1) &&& 0x7f) (fun _ => 0) c) := fun c =>
    (hi c).write _ (by show stuffed w _ c = _; unfold stuffed; rw [if_neg (by push_cast; omega)]) _ hj
  have hr' : X.tick (X.tick s.x (fun c => tickEven h (s.inv.write s.j (w k) c) (s.j + 1))).1
      (fun c => tickOdd h ((s.inv.write s.j (w k)).write ((s.j + 1) &&& 0x7f) (fun _ => 0) c) (((s.j + 1) &&& 0x7f) + 1))
      = X.tick (X.ticks.st x0 (upsampled h w) (2 * k + 1)) (upsampled h w (2 * k + 1)) := by
    rw [hr]
    congr 1
    funext c
    exact (hi' c).odd (by omega) h _ hj
  have ho' : ∀ c, Ring j0 (2 * k + 1 + 1) (fun m => extended (X.stream x0 (upsampled h w)) m c) ((overTick h X s (w k)).1.outv c) := fun c =>
    (ho c).write _ (by
      show extended _ _ c = (X.tick _ _).2 c
      rw [hr']; unfold extended; rw [if_pos (by push_cast; omega)]; rfl) _ hj
  refine ⟨⟨?_, hi', ho', ?_⟩, ?_⟩
  · show (X.tick _ _).1 = _
    rw [hr']; rfl
  · show (((s.j + 1) &&& 0x7f) + 1) &&& 0x7f = _
    rw [hj, and127]; omega
  · funext c
    have := (ho' c).all h _ hj
    refine Eq.trans this (Finset.sum_congr rfl (fun m _ => ?_))
    congr 2
    push_cast
    ring

theorem overInv_st (h : Nat → ℝ) (X : Node ℝ i o) (x0 : X.σ) (j0 : Nat) (hj : j0 < 128) (w : Nat → Frame ℝ i) (k : Nat) :
    OverInv h X x0 j0 w k ((oversampler h X).ticks.st (⟨x0, fun _ _ => 0, fun _ _ => 0, j0⟩ : OverSt X.σ i o) w k) := by
  induction k with
  | zero =>
    refine ⟨rfl, fun c => ⟨fun m _ hm => ?_⟩, fun c => ⟨fun m _ hm => ?_⟩, ?_⟩
    · show 0 = stuffed w m c
      unfold stuffed; rw [if_neg (by omega)]
    · show 0 = extended _ m c
      unfold extended; rw [if_neg (by omega)]
    · show j0 = _
      omega
  | succ k ih => exact (overInv_step h X x0 j0 w k _ ih).1

theorem over_output (h : Nat → ℝ) (X : Node ℝ i o) (x0 : X.σ) (j0 : Nat) (hj : j0 < 128) (w : Nat → Frame ℝ i) (k : Nat) :
    (oversampler h X).stream (⟨x0, fun _ _ => 0, fun _ _ => 0, j0⟩ : OverSt X.σ i o) w k
      = fun c => ∑ m ∈ Finset.range 43, h m * extended (X.stream x0 (upsampled h w)) (2 * (k : ℤ) - 42 + m) c :=
  (overInv_step h X x0 j0 w k _ (overInv_st h X x0 j0 hj w k)).2

theorem over_two (h : Nat → ℝ) (X : Node ℝ i o) (x0 : X.σ) (j0 : Nat) (hj : j0 < 128) (w : Nat → Frame ℝ i) (k : Nat) :
    ((oversampler h X).ticks.st (⟨x0, fun _ _ => 0, fun _ _ => 0, j0⟩ : OverSt X.σ i o) w k : OverSt X.σ i o).x = X.ticks.st x0 (upsampled h w) (2 * k) :=
  (overInv_st h X x0 j0 hj w k).x

/-- C64. The oversampler runs the inner node exactly twice per sample, on the zero stuffed input filtered by the taps, and its output is
the inner node's output filtered by the taps and read at every other sample. This holds for any taps, inner node, and input. -/
theorem C64_output (h : Nat → ℝ) (X : Node ℝ i o) (x0 : X.σ) (w : Nat → Frame ℝ i) (k : Nat) :
    (oversampler h X).stream (overNew X x0 : OverSt X.σ i o) w k
      = fun c => ∑ m ∈ Finset.range 43, h m * extended (X.stream x0 (upsampled h w)) (2 * (k : ℤ) - 42 + m) c :=
  over_output h X x0 0 (by omega) w k

/-- C64. After `k` samples the inner node has been run on exactly the first `2 k` samples of the doubled rate input. -/
theorem C64_two (h : Nat → ℝ) (X : Node ℝ i o) (x0 : X.σ) (w : Nat → Frame ℝ i) (k : Nat) :
    ((oversampler h X).ticks.st (overNew X x0 : OverSt X.σ i o) w k : OverSt X.σ i o).x = X.ticks.st x0 (upsampled h w) (2 * k) :=
  over_two h X x0 0 (by omega) w k

theorem over_reached (h : Nat → ℝ) (X : Node ℝ i o) (x0 : X.σ) (s : (oversampler h X).σ)
    (hs : Reached (oversampler h X) (overNew X x0 : OverSt X.σ i o) s) : Reached X x0 (s : OverSt X.σ i o).x ∧ (s : OverSt X.σ i o).j < 128 := by
  induction hs with
  | init => exact ⟨Reached.init, by show 0 < 128; omega⟩
  | tick x _ ih => exact ⟨Reached.tick _ (Reached.tick _ ih.1), by show _ &&& 0x7f < 128; rw [and127]; omega⟩
  | reset _ ih => exact ⟨Reached.reset ih.1, ih.2⟩

/-- C64. Resetting makes the output independent of the past, although the ring index is not reset: after a reset the oversampler outputs what a
new one outputs, if resetting the inner node does so. -/
theorem C64_reset (h : Nat → ℝ) (X : Node ℝ i o) (x0 : X.σ) (hX : ResetFresh X x0) : ResetFresh (oversampler h X) (overNew X x0 : OverSt X.σ i o) := by
  refine TickFresh.ofTick ?_
  intro s hs w
  obtain ⟨h1, h2⟩ := over_reached h X x0 s hs
  have hr := hX.tickFresh _ h1
  funext k
  refine (over_output h X (X.reset (s : OverSt X.σ i o).x) (s : OverSt X.σ i o).j h2 w k).trans (Eq.trans ?_ (over_output h X x0 0 (by omega) w k).symm)
  rw [hr]

/-- A node that passes its input. -/
def wire : Node ℝ 1 1 := Node.ofTick Unit (fun s => s) (fun s x => (s, x))

/-- A single tap of weight one on the newest sample, around a wire: sample `k` is the doubled and zero stuffed input. -/
example (w : Nat → Frame ℝ 1) : (oversampler (fun m => if m = 42 then 1 else 0) wire).stream (overNew wire () : OverSt Unit 1 1) w 3 0 = 2 * w 3 0 := by
  have := congrFun (C64_output (fun m => if m = 42 then 1 else 0) wire () w 3) 0
  refine this.trans ?_
  rw [Finset.sum_eq_single 42]
  · rw [if_pos rfl, one_mul]
    show extended _ (6 : ℤ) 0 = _
    unfold extended
    rw [if_pos (by omega)]
    show upsampled _ w 6 0 = _
    unfold upsampled
    rw [Finset.sum_eq_single 42]
    · beta_reduce
      rw [if_pos rfl, one_mul]
      rfl
    · intro b _ hb; beta_reduce; rw [if_neg hb, zero_mul]
    · intro hb; simp at hb
  · intro b _ hb; rw [if_neg hb, zero_mul]
  · intro hb; simp at hb

/-- The wire meets the hypothesis on resets. -/
example : ResetFresh (oversampler (fun m => m) wire) (overNew wire () : OverSt Unit 1 1) :=
  C64_reset _ wire () (TickFresh.ofTick (tickFresh_of_eq (fun _ => True) trivial (fun _ _ _ => trivial) (fun _ _ => rfl)))

end Fundsp.Rs
