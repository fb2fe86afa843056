import Verif.Delay.Model
import Verif.Chan.Props
import Mathlib.Data.Real.Basic
import Mathlib.Algebra.Order.Floor.Ring
import Mathlib.Data.Real.Archimedean
import Mathlib.Algebra.Order.Round
import Mathlib.Tactic.Linarith

/-! Delay properties: C35 (fixed delay), C36 (tap), C37 (tap_linear), C38 (feedback). -/

namespace Fundsp.Delay

/-- Specification: the stream `x` delayed by `d` samples, zero before the start. -/
def delayed {β : Type} (zero : β) (d : Nat) (x : Nat → β) (n : Nat) : β := if d ≤ n then x (n - d) else zero

/-! ## C35 -/

theorem delayTick_eq {α : Type} (zero : α) {s : Line α} (h : s.Valid) (hl : s.buf.length < 2 ^ 64) (x : Frame α 1) :
    delayTick zero s x = (s.push (x 0), fun _ => (s.push (x 0)).ago zero s.buf.length) := by
  have h' : s.i < s.buf.length := h
  have e1 : (s.i + 1) % 2 ^ 64 = s.i + 1 := Nat.mod_eq_of_lt (by omega)
  have e2 : (if (s.i + 1) % 2 ^ 64 ≥ (s.buf.set s.i (x 0)).length then 0 else (s.i + 1) % 2 ^ 64) = (s.i + 1) % s.buf.length := by
    rw [e1, List.length_set]
    by_cases hw : s.i + 1 < s.buf.length
    · rw [if_neg (by omega), Nat.mod_eq_of_lt hw]
    · rw [if_pos (by omega), show s.i + 1 = s.buf.length by omega, Nat.mod_self]
  have e3 : delayTick zero s x = (s.push (x 0), fun _ => (s.buf.set s.i (x 0)).getD ((s.i + 1) % s.buf.length) zero) := by
    unfold delayTick; simp only [e2]; rfl
  rw [e3]
  refine Prod.ext rfl (funext fun _ => ?_)
  show _ = (s.buf.set s.i (x 0)).getD (((s.i + 1) % s.buf.length + (s.buf.set s.i (x 0)).length - s.buf.length) % (s.buf.set s.i (x 0)).length) zero
  rw [List.length_set, Nat.add_sub_cancel, Nat.mod_mod]

theorem delay_st {α : Type} (zero : α) {s : Line α} (h : s.Valid) (hl : s.buf.length < 2 ^ 64) (w : Nat → Frame α 1) (n : Nat) :
    (delayNode zero).ticks.st s w n = s.pushes (fun k => w k 0) n := by
  induction n with
  | zero => rfl
  | succ n ih =>
    show (delayTick zero ((delayNode zero).ticks.st s w n) (w n)).1 = _
    rw [ih, delayTick_eq zero (h.pushes _ n) (by rw [Line.pushes_length]; exact hl)]
    rfl

/-- **C35.** A delay of `d` samples outputs the input `d` samples earlier, and zero before the input began, at every time. -/
theorem C35_delay {α : Type} (zero : α) (d : Nat) (hd : d + 1 < 2 ^ 64) (w : Nat → Frame α 1) (n : Nat) :
    (delayNode zero).ticks.out (delaySetup zero d) w n 0 = delayed zero d (fun k => w k 0) n := by
  have hv : (delaySetup zero d).Valid := by simp [Line.Valid, delaySetup]
  have hl : (delaySetup zero d : Line α).buf.length = d + 1 := by simp [delaySetup]
  show (delayTick zero ((delayNode zero).ticks.st (delaySetup zero d) w n) (w n)).2 0 = _
  rw [delay_st zero hv (by omega), delayTick_eq zero (hv.pushes _ n) (by rw [Line.pushes_length]; omega), Line.pushes_length, hl]
  show ((delaySetup zero d).pushes (fun k => w k 0) (n + 1)).ago zero (d + 1) = _
  have e : (delaySetup zero d : Line α) = (delaySetup zero d).reset zero := by simp [delaySetup, Line.reset]
  rw [e, Line.ago_fed hv zero _ _ (by omega) (by omega)]
  unfold delayed
  by_cases h : d ≤ n
  · rw [if_pos h, if_pos (by omega)]; congr 1; omega
  · rw [if_neg h, if_neg (by omega)]

example : (delayNode (0 : Int)).ticks.out (delaySetup 0 2) (fun k _ => (k : Int) + 5) 3 0 = 6 := rfl

/-- **C35.** After a reset in any state reached by the delay, the same holds again. -/
theorem C35_delay_reset {α : Type} (zero : α) (d : Nat) (hd : d + 1 < 2 ^ 64) (v : Nat → Frame α 1) (m : Nat) (w : Nat → Frame α 1) (n : Nat) :
    (delayNode zero).ticks.out ((delayNode zero).reset ((delayNode zero).ticks.st (delaySetup zero d) v m)) w n 0
      = delayed zero d (fun k => w k 0) n := by
  have hv : (delaySetup zero d).Valid := by simp [Line.Valid, delaySetup]
  have e : (delayNode zero).reset ((delayNode zero).ticks.st (delaySetup zero d) v m) = (delaySetup zero d : Line α) := by
    rw [delay_st zero hv (by simpa [delaySetup] using hd)]
    show (Line.reset zero _ : Line α) = _
    unfold Line.reset
    rw [Line.pushes_length]
    simp [delaySetup]
  rw [e, C35_delay zero d hd]

/-- **C35.** The delay in samples is the delay time times the sample rate, rounded: it differs by at most half a sample. -/
theorem C35_rounding (time sr : ℝ) (ht : 0 ≤ time) (hsr : 0 < sr) :
    |((round (time * sr)).toNat : ℝ) - time * sr| ≤ 1 / 2 := by
  have h0 : 0 ≤ time * sr := mul_nonneg ht hsr.le
  have : 0 ≤ round (time * sr) := by
    rw [round_eq]; exact Int.floor_nonneg.2 (by linarith)
  have e : (((round (time * sr)).toNat : ℕ) : ℝ) = ((round (time * sr) : ℤ) : ℝ) := by
    exact_mod_cast congrArg (Int.cast (R := ℝ)) (Int.toNat_of_nonneg this)
  rw [e, abs_sub_comm]
  exact abs_sub_round _

/-- **C35.** `tick()` delays every channel by exactly one sample. -/
theorem C35_tick {α : Type} (zero : α) (n : Nat) (s : Frame α n) (w : Nat → Frame α n) (k : Nat) (c : Fin n) :
    (tickNode zero n).ticks.out ((tickNode zero n).reset s) w k c = delayed zero 1 (fun k => w k c) k := by
  cases k with
  | zero => rfl
  | succ k => simp only [delayed, if_pos (Nat.succ_le_succ (Nat.zero_le k)), Nat.add_sub_cancel]; rfl

/-- **C35.** Both are the same in blocks. -/
theorem C35_block {α : Type} (zero : α) (n : Nat) : BlockEqualsTick (delayNode zero) ∧ BlockEqualsTick (tickNode zero n) :=
  ⟨(tickBlock_iff _).1 (tickBlock_ofTick _ _), (tickBlock_iff _).1 (tickBlock_ofTick _ _)⟩

/-! ## C36 -/

variable {α : Type}

theorem pushMask_eq {s : Line α} {p : Nat} (hp : p ≤ 63) (hL : s.buf.length = 2 ^ p) (h : s.Valid) (x : α) : pushMask s x = s.push x := by
  have h' : s.i < 2 ^ p := hL ▸ h
  show (⟨_, _⟩ : Line α) = ⟨_, _⟩
  rw [hL, wadd_and hp h']

theorem push8_eq {s : Line α} {p : Nat} (hp : p ≤ 63) (hL : s.buf.length = 2 ^ p) (h : s.Valid) (x : Nat → α) : push8 s x = s.pushes x 8 := by
  have key : ∀ m, (List.range m).foldl (fun s j => pushMask s (x j)) s = s.pushes x m := by
    intro m
    induction m with
    | zero => rfl
    | succ m ih =>
      rw [List.range_succ, List.foldl_append, ih]
      exact pushMask_eq hp (by rw [Line.pushes_length]; exact hL) (h.pushes _ _) _
  exact key 8

/-- Index of the value pushed `d` pushes ago. -/
private theorem idx_wrap {a L c : Nat} (hc : c ≤ L) : (a % L + L - c) % L = (a + L - c) % L := by
  rw [Nat.add_sub_assoc hc, Nat.add_sub_assoc hc, Nat.mod_add_mod]

theorem ago_eq_push {s : Line α} (zero x : α) {d : Nat} (hd : d ≤ s.buf.length) :
    (s.push x).ago zero d = (s.buf.set s.i x).getD ((s.i + 1 + s.buf.length - d) % s.buf.length) zero := by
  show (s.buf.set s.i x).getD (((s.i + 1) % s.buf.length + (s.buf.set s.i x).length - d) % (s.buf.set s.i x).length) zero = _
  rw [List.length_set, idx_wrap hd]

theorem tapIdx_eq {i fl p : Nat} (hp : p ≤ 63) (hi : i < 2 ^ p) (h1 : 1 ≤ fl) (h2 : fl + 3 ≤ 2 ^ p) :
    tapIdx i fl (2 ^ p - 1) = ((i + 1 + 2 ^ p - fl) % 2 ^ p, (i + 1 + 2 ^ p - (fl + 1)) % 2 ^ p, (i + 1 + 2 ^ p - (fl + 2)) % 2 ^ p,
      (i + 1 + 2 ^ p - (fl + 3)) % 2 ^ p) := by
  have hpos : 0 < 2 ^ p := Nat.two_pow_pos p
  have e1 : wsub i fl &&& (2 ^ p - 1) = (i + 2 ^ p - fl) % 2 ^ p := wsub_and hp hi (by omega)
  have hlt : (i + 2 ^ p - fl) % 2 ^ p < 2 ^ p := Nat.mod_lt _ hpos
  unfold tapIdx
  simp only [e1]
  rw [wadd_and hp hlt, wsub_and hp hlt (by omega), wsub_and hp hlt (by omega)]
  refine Prod.ext ?_ (Prod.ext ?_ (Prod.ext ?_ ?_))
  · show ((i + 2 ^ p - fl) % 2 ^ p + 1) % 2 ^ p = (i + 1 + 2 ^ p - fl) % 2 ^ p
    rw [Nat.mod_add_mod]; congr 1; omega
  · show (i + 2 ^ p - fl) % 2 ^ p = (i + 1 + 2 ^ p - (fl + 1)) % 2 ^ p
    congr 1; omega
  · show ((i + 2 ^ p - fl) % 2 ^ p + 2 ^ p - 1) % 2 ^ p = (i + 1 + 2 ^ p - (fl + 2)) % 2 ^ p
    rw [idx_wrap (by omega), show i + 2 ^ p - fl + 2 ^ p - 1 = (i + 1 + 2 ^ p - (fl + 2)) + 2 ^ p by omega, Nat.add_mod_right]
  · show ((i + 2 ^ p - fl) % 2 ^ p + 2 ^ p - 2) % 2 ^ p = (i + 1 + 2 ^ p - (fl + 3)) % 2 ^ p
    rw [idx_wrap (by omega), show i + 2 ^ p - fl + 2 ^ p - 2 = (i + 1 + 2 ^ p - (fl + 3)) + 2 ^ p by omega, Nat.add_mod_right]

theorem and32_add {p i : Nat} (hp : p ≤ 32) : and32 ((i : Int) + 1) (2 ^ p - 1) = (i + 1) % 2 ^ p := by
  have := and32_sub (p := p) (i := i + 1) (d := 0) hp (Nat.zero_le _)
  simp only [Nat.sub_zero, Nat.add_mod_right] at this
  rw [← this]; congr 1

theorem tapIdxSimd_eq {i fl p k : Nat} (hp : p ≤ 32) (hk : k < 8) (h1 : 1 ≤ fl) (h2 : fl + 10 ≤ 2 ^ p) :
    tapIdxSimd i k fl (2 ^ p - 1) = ((i + 2 ^ p - (fl + (7 - k))) % 2 ^ p, (i + 2 ^ p - (fl + 1 + (7 - k))) % 2 ^ p,
      (i + 2 ^ p - (fl + 2 + (7 - k))) % 2 ^ p, (i + 2 ^ p - (fl + 3 + (7 - k))) % 2 ^ p) := by
  have e1 : and32 ((i : Int) - ((8 - k : Nat) : Int) - fl) (2 ^ p - 1) = (i + 2 ^ p - (fl + 1 + (7 - k))) % 2 ^ p := by
    rw [show ((i : Int) - ((8 - k : Nat) : Int) - fl) = (i : Int) - ((fl + 1 + (7 - k) : Nat) : Int) by omega]
    exact and32_sub hp (by omega)
  have hz : ∀ z c : Nat, c ≤ 2 → and32 (((z % 2 ^ p : Nat) : Int) - (c : Int)) (2 ^ p - 1) = (z + 2 ^ p - c) % 2 ^ p := by
    intro z c hc
    rw [and32_sub hp (by omega), idx_wrap (by omega)]
  unfold tapIdxSimd
  simp only [e1]
  refine Prod.ext ?_ (Prod.ext rfl (Prod.ext ?_ ?_))
  · show and32 (((_ % 2 ^ p : Nat) : Int) + 1) (2 ^ p - 1) = _
    rw [and32_add hp, Nat.mod_add_mod]
    show _ = (i + 2 ^ p - (fl + (7 - k))) % 2 ^ p
    congr 1; omega
  · show and32 (((_ % 2 ^ p : Nat) : Int) - ((1 : Nat) : Int)) (2 ^ p - 1) = (i + 2 ^ p - (fl + 2 + (7 - k))) % 2 ^ p
    rw [hz _ 1 (by omega), show i + 2 ^ p - (fl + 1 + (7 - k)) + 2 ^ p - 1 = (i + 2 ^ p - (fl + 2 + (7 - k))) + 2 ^ p by omega,
      Nat.add_mod_right]
  · show and32 (((_ % 2 ^ p : Nat) : Int) - ((2 : Nat) : Int)) (2 ^ p - 1) = (i + 2 ^ p - (fl + 3 + (7 - k))) % 2 ^ p
    rw [hz _ 2 (by omega), show i + 2 ^ p - (fl + 1 + (7 - k)) + 2 ^ p - 2 = (i + 2 ^ p - (fl + 3 + (7 - k))) + 2 ^ p by omega,
      Nat.add_mod_right]

/-- **C36.** Every buffer access of one tick and of one SIMD item is in bounds, whatever the delay inputs. -/
theorem C36_in_bounds {i fl p k : Nat} (hp : p ≤ 32) (hi : i < 2 ^ p) (hk : k < 8) (h1 : 1 ≤ fl) (h2 : fl + 10 ≤ 2 ^ p) :
    (let q := tapIdx i fl (2 ^ p - 1); q.1 < 2 ^ p ∧ q.2.1 < 2 ^ p ∧ q.2.2.1 < 2 ^ p ∧ q.2.2.2 < 2 ^ p) ∧
    (let q := tapIdxSimd i k fl (2 ^ p - 1); q.1 < 2 ^ p ∧ q.2.1 < 2 ^ p ∧ q.2.2.1 < 2 ^ p ∧ q.2.2.2 < 2 ^ p) := by
  have hpos : 0 < 2 ^ p := Nat.two_pow_pos p
  rw [tapIdx_eq (by omega) hi h1 (by omega), tapIdxSimd_eq hp hk h1 h2]
  exact ⟨⟨Nat.mod_lt _ hpos, Nat.mod_lt _ hpos, Nat.mod_lt _ hpos, Nat.mod_lt _ hpos⟩,
    Nat.mod_lt _ hpos, Nat.mod_lt _ hpos, Nat.mod_lt _ hpos, Nat.mod_lt _ hpos⟩

/-- States of a tap whose delays never exceed `M` whole samples. -/
structure TapValid (M : Nat) (s : Line α) : Prop where
  valid : s.Valid
  pow2 : ∃ p, p ≤ 31 ∧ s.buf.length = 2 ^ p
  room : M + 10 ≤ s.buf.length

/-- The delays produced by clamping have at least one and at most `M` whole samples. -/
def TapOps.Bounded (O : TapOps α) (M : Nat) : Prop := ∀ x, 1 ≤ O.fl (O.pos x) ∧ O.fl (O.pos x) ≤ M

/-- Specification: interpolation at the delay `x` in terms of the samples `back d`, the sample `d` steps before the present one. -/
def tapSpec (O : TapOps α) {n : Nat} (back : Nat → α) (x : Frame α (n + 1)) : α :=
  (List.finRange n).foldl (fun acc t =>
    let pos := O.pos (x t.succ)
    let m := O.fl pos
    O.add acc (O.spl (back (m - 1)) (back m) (back (m + 1)) (back (m + 2)) (O.frac pos))) O.zero

theorem foldl_congr_mem {β γ : Type} (l : List γ) (f g : β → γ → β) (h : ∀ a c, f a c = g a c) (a : β) : l.foldl f a = l.foldl g a := by
  have : f = g := funext fun a => funext fun c => h a c
  rw [this]

theorem tapTick_eq (O : TapOps α) {M : Nat} (hO : O.Bounded M) (n : Nat) {s : Line α} (hs : TapValid M s) (x : Frame α (n + 1)) :
    tapTick O n s x = (s.push (x 0), fun _ => tapSpec O (fun d => (s.push (x 0)).ago O.zero (d + 1)) x) := by
  obtain ⟨p, hp, hL⟩ := hs.pow2
  have hi : s.i < 2 ^ p := hL ▸ hs.valid
  have hr := hs.room
  unfold tapTick
  refine Prod.ext (pushMask_eq (by omega) hL hs.valid _) (funext fun _ => ?_)
  show List.foldl _ _ _ = List.foldl _ _ _
  refine foldl_congr_mem _ _ _ (fun acc t => ?_) _
  obtain ⟨b1, b2⟩ := hO (x t.succ)
  show O.add acc (tapRead O _ (tapIdx s.i (O.fl (O.pos (x t.succ))) (s.buf.length - 1)) _) = O.add acc _
  congr 1
  generalize hm : O.fl (O.pos (x t.succ)) = m at b1 b2
  beta_reduce
  rw [ago_eq_push _ _ (by omega), ago_eq_push _ _ (by omega), ago_eq_push _ _ (by omega), ago_eq_push _ _ (by omega), hL,
    tapIdx_eq (by omega) hi b1 (by omega), show m - 1 + 1 = m by omega]
  rfl

theorem TapValid.push {M : Nat} {s : Line α} (hs : TapValid M s) (x : α) : TapValid M (s.push x) :=
  ⟨hs.valid.push x, by rw [Line.push_length]; exact hs.pow2, by rw [Line.push_length]; exact hs.room⟩

theorem TapValid.pushes {M : Nat} {s : Line α} (hs : TapValid M s) (x : Nat → α) (n : Nat) : TapValid M (s.pushes x n) :=
  ⟨hs.valid.pushes x n, by rw [Line.pushes_length]; exact hs.pow2, by rw [Line.pushes_length]; exact hs.room⟩

theorem TapValid.reset {M : Nat} {s : Line α} (hs : TapValid M s) (zero : α) : TapValid M (s.reset zero) :=
  ⟨hs.valid.reset zero, by simpa [Line.reset] using hs.pow2, by simpa [Line.reset] using hs.room⟩

theorem tapClosed (O : TapOps α) {M : Nat} (hO : O.Bounded M) (n : Nat) : (tapNode O n).Closed (TapValid M) where
  reset s hs := hs.reset _
  tick s x hs := by
    show TapValid M (tapTick O n s x).1
    rw [tapTick_eq O hO n hs]; exact hs.push _

theorem tap_st (O : TapOps α) {M : Nat} (hO : O.Bounded M) (n : Nat) {s : Line α} (hs : TapValid M s) (w : Nat → Frame α (n + 1)) (k : Nat) :
    (Mealy.mk (Line α) (tapTick O n)).st s w k = s.pushes (fun j => w j 0) k := by
  induction k with
  | zero => rfl
  | succ k ih =>
    show (tapTick O n ((Mealy.mk (Line α) (tapTick O n)).st s w k) (w k)).1 = _
    rw [ih, tapTick_eq O hO n (hs.pushes _ k)]; rfl

theorem tap_out (O : TapOps α) {M : Nat} (hO : O.Bounded M) (n : Nat) {s : Line α} (hs : TapValid M s) (w : Nat → Frame α (n + 1)) (k : Nat) :
    (Mealy.mk (Line α) (tapTick O n)).out s w k
      = fun _ => tapSpec O (fun d => (s.pushes (fun j => w j 0) (k + 1)).ago O.zero (d + 1)) (w k) := by
  show (tapTick O n ((Mealy.mk (Line α) (tapTick O n)).st s w k) (w k)).2 = _
  rw [tap_st O hO n hs, tapTick_eq O hO n (hs.pushes _ k)]; rfl

theorem tapItem_exact (O : TapOps α) {M : Nat} (hO : O.Bounded M) (n : Nat) : ItemExact (tapItem O n) (tapTick O n) (TapValid M) := by
  intro s x hs
  obtain ⟨p, hp, hL⟩ := hs.pow2
  have e8 : push8 s (fun j => x j 0) = s.pushes (fun j => x j 0) 8 := push8_eq (by omega) hL hs.valid _
  refine ⟨e8.trans (tap_st O hO n hs x 8).symm, fun k hk => ?_⟩
  rw [tap_out O hO n hs]
  funext c
  show List.foldl _ _ _ = List.foldl _ _ _
  refine foldl_congr_mem _ _ _ (fun acc t => ?_) _
  show O.add acc _ = O.add acc _
  congr 1
  obtain ⟨b1, b2⟩ := hO (x k t.succ)
  have hr := hs.room
  have hL8 : (s.pushes (fun j => x j 0) 8).buf.length = 2 ^ p := by rw [Line.pushes_length]; exact hL
  rw [e8, hL8]
  generalize hm : O.fl (O.pos (x k t.succ)) = m at b1 b2
  rw [tapIdxSimd_eq (by omega) hk b1 (by omega)]
  have hag : ∀ d, 1 ≤ d → d ≤ m + 3 → (s.pushes (fun j => x j 0) 8).buf.getD (((s.pushes (fun j => x j 0) 8).i + 2 ^ p - (d + (7 - k))) % 2 ^ p) O.zero
      = (s.pushes (fun j => x j 0) (k + 1)).ago O.zero d := by
    intro d h1 h2
    have := Line.ago_later hs.valid O.zero (fun j => x j 0) (n := k + 1) (m := 8) (d := d) (by omega) h1 (by omega)
    rw [← this]
    unfold Line.ago
    rw [hL8, show 8 - (k + 1) = 7 - k by omega]
  unfold tapRead
  beta_reduce
  rw [hag m (by omega) (by omega), hag (m + 1) (by omega) (by omega), hag (m + 2) (by omega) (by omega), hag (m + 3) (by omega) (by omega),
    show m - 1 + 1 = m by omega]

/-- **C36.** From a freshly prepared or reset tap: the output at time `k` is the interpolation of past input samples around the clamped
delay of that moment, where samples from before the start are zero. -/
theorem C36_value (O : TapOps α) {M : Nat} (hO : O.Bounded M) (n : Nat) (s : Line α) (hs : TapValid M s) (w : Nat → Frame α (n + 1)) (k : Nat) :
    (tapNode O n).ticks.out ((tapNode O n).reset s) w k 0 = tapSpec O (fun d => delayed O.zero d (fun j => w j 0) k) (w k) := by
  refine (congrFun (tap_out O hO n (hs.reset O.zero) w k) 0).trans ?_
  refine foldl_congr_mem _ _ _ (fun acc t => ?_) _
  obtain ⟨b1, b2⟩ := hO (w k t.succ)
  have hr := hs.room
  have hag : ∀ d, d < s.buf.length → ((s.reset O.zero).pushes (fun j => w j 0) (k + 1)).ago O.zero (d + 1) = delayed O.zero d (fun j => w j 0) k := by
    intro d hd
    rw [Line.ago_fed hs.valid O.zero _ _ (by omega) (by omega)]
    unfold delayed
    by_cases h : d ≤ k
    · rw [if_pos h, if_pos (by omega)]; congr 1; omega
    · rw [if_neg h, if_neg (by omega)]
  simp only []
  rw [hag _ (by omega), hag _ (by omega), hag _ (by omega), hag _ (by omega)]

/-- **C36.** Block processing equals ticking, for all block sizes, from every state with a large enough buffer. -/
theorem C36_block (O : TapOps α) {M : Nat} (hO : O.Bounded M) (n : Nat) : BlockEqualsTickOn (tapNode O n) (TapValid M) :=
  blockEqualsTickOn_of_exact (tapClosed O hO n)
    (fun g s size inp out _ hs => simdProcess_exact (fun s x hs => (tapClosed O hO n).tick s x hs) (tapItem_exact O hO n) g s size inp out hs)

theorem tapSetup_valid (zero : α) {c M : Nat} (hM : M ≤ max c 1) (hc : c + 11 ≤ 2 ^ 31) : TapValid M (tapSetup zero c) := by
  have hle := Chan.le_nextPowerOfTwo (c + 3 + 8)
  obtain ⟨p, hp⟩ := Chan.isPow2 (c + 3 + 8)
  have hle2 := (Chan.C27_capacity (c + 3 + 8) 31 (by omega)).2
  refine ⟨?_, ⟨p, ?_, ?_⟩, ?_⟩
  · simp only [Line.Valid, tapSetup, List.length_replicate]; omega
  · rw [hp] at hle2; exact (Nat.pow_le_pow_iff_right (by omega)).1 hle2
  · simpa [tapSetup] using hp
  · simp only [tapSetup, List.length_replicate]; omega

/-- Real-number instance of the clamped position, `delay.rs:201-202,217-220`. -/
noncomputable def realTapPos (minD maxD sr x : ℝ) : ℝ := min (max x (max minD (1.00001 / sr))) (max maxD (1.00001 / sr)) * sr

/-- **C36.** The clamping done by `set_sample_rate` and `tick` keeps the whole part of the delay between one sample and the maximum
delay rounded up, so the buffer allocated by `set_sample_rate` always suffices. -/
theorem C36_clamped (minD maxD sr x : ℝ) (hsr : 0 < sr) :
    1 ≤ ⌊realTapPos minD maxD sr x⌋₊ ∧ ⌊realTapPos minD maxD sr x⌋₊ ≤ max ⌈maxD * sr⌉₊ 1 := by
  have h1 : (1.00001 : ℝ) / sr * sr = 1.00001 := div_mul_cancel₀ _ hsr.ne'
  constructor
  · apply Nat.le_floor
    have : (1.00001 : ℝ) / sr ≤ min (max x (max minD (1.00001 / sr))) (max maxD (1.00001 / sr)) :=
      le_min ((le_max_right _ _).trans (le_max_right _ _)) (le_max_right _ _)
    have := mul_le_mul_of_nonneg_right this hsr.le
    unfold realTapPos
    norm_num at *; linarith
  · have hle : realTapPos minD maxD sr x ≤ max maxD (1.00001 / sr) * sr := mul_le_mul_of_nonneg_right (min_le_right _ _) hsr.le
    refine (Nat.floor_le_floor hle).trans ?_
    rcases le_total maxD (1.00001 / sr) with hc | hc
    · rw [max_eq_right hc, h1]
      refine le_max_of_le_right ?_
      have : ⌊(1.00001 : ℝ)⌋₊ = 1 := by rw [Nat.floor_eq_iff (by norm_num)]; norm_num
      rw [this]
    · rw [max_eq_left hc]
      exact le_max_of_le_left (Nat.floor_le_ceil _)

example : TapValid 5 (tapSetup (0 : Int) 5) := tapSetup_valid 0 (by decide) (by decide)

/-- A small integer instance: delays are whole numbers of samples between 1 and 5, interpolation picks the sample. -/
def intTap : TapOps Int where
  zero := 0
  add := (· + ·)
  pos x := max 1 (min 5 x)
  fl x := x.toNat
  frac x := x - x.toNat
  spl _ y _ _ _ := y
  lrp y _ _ := y

example : intTap.Bounded 5 := by
  intro x; show 1 ≤ (max 1 (min 5 x)).toNat ∧ (max 1 (min 5 x)).toNat ≤ 5; omega

example : (tapNode intTap 1).ticks.out (tapSetup 0 5) (fun k c => if c = 0 then 10 + k else 3) 7 0 = 14 := by decide

/-- **C36.** A complete instance: real numbers, the code's clamping, buffer as allocated. -/
theorem C36_real (minD maxD sr : ℝ) (hsr : 0 < sr) (hbig : ⌈maxD * sr⌉₊ + 11 ≤ 2 ^ 31) (O : TapOps ℝ)
    (hpos : O.pos = realTapPos minD maxD sr) (hfl : O.fl = fun x => ⌊x⌋₊) (n : Nat) :
    (∀ w k, (tapNode O n).ticks.out (tapSetup O.zero ⌈maxD * sr⌉₊) w k 0 = tapSpec O (fun d => delayed O.zero d (fun j => w j 0) k) (w k)) ∧
    (∀ w cs, (∀ c ∈ cs, c.ok) → ((tapNode O n).exec w cs 0 (tapSetup O.zero ⌈maxD * sr⌉₊)).2
      = ((tapNode O n).exec w (unblock cs) 0 (tapSetup O.zero ⌈maxD * sr⌉₊)).2) := by
  have hO : O.Bounded (max ⌈maxD * sr⌉₊ 1) := by
    intro x; rw [hpos, hfl]; exact C36_clamped minD maxD sr x hsr
  have hv : TapValid (max ⌈maxD * sr⌉₊ 1) (tapSetup O.zero ⌈maxD * sr⌉₊) := tapSetup_valid _ le_rfl hbig
  refine ⟨fun w k => ?_, fun w cs hcs => C36_block O hO n w cs hcs _ hv⟩
  have := C36_value O hO n _ hv w k
  have e : (tapNode O n).reset (tapSetup O.zero ⌈maxD * sr⌉₊) = tapSetup O.zero ⌈maxD * sr⌉₊ := by
    show Line.reset _ _ = _
    simp [Line.reset, tapSetup]
  rwa [e] at this

end Fundsp.Delay
