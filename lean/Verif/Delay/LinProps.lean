import Verif.Delay.Props

/-! C37: `TapLinear`. The SIMD loop writes eight samples before reading, but the buffer has no headroom for them, so the property is false
in general; it holds when rounding up to a power of two happens to leave room. -/

namespace Fundsp.Delay

variable {α : Type}

private theorem idx_wrap' {a L c : Nat} (hc : c ≤ L) : (a % L + L - c) % L = (a + L - c) % L := by
  rw [Nat.add_sub_assoc hc, Nat.add_sub_assoc hc, Nat.mod_add_mod]

theorem linIdx_eq {i fl p : Nat} (hp : p ≤ 63) (hi : i < 2 ^ p) (h2 : fl + 2 ≤ 2 ^ p) :
    linIdx i fl (2 ^ p - 1) = ((i + 1 + 2 ^ p - (fl + 1)) % 2 ^ p, (i + 1 + 2 ^ p - (fl + 2)) % 2 ^ p) := by
  have hpos : 0 < 2 ^ p := Nat.two_pow_pos p
  have e1 : wsub i fl &&& (2 ^ p - 1) = (i + 2 ^ p - fl) % 2 ^ p := wsub_and hp hi (by omega)
  have hlt : (i + 2 ^ p - fl) % 2 ^ p < 2 ^ p := Nat.mod_lt _ hpos
  unfold linIdx
  simp only [e1]
  rw [wsub_and hp hlt (by omega)]
  refine Prod.ext ?_ ?_
  · show (i + 2 ^ p - fl) % 2 ^ p = (i + 1 + 2 ^ p - (fl + 1)) % 2 ^ p
    congr 1; omega
  · show ((i + 2 ^ p - fl) % 2 ^ p + 2 ^ p - 1) % 2 ^ p = (i + 1 + 2 ^ p - (fl + 2)) % 2 ^ p
    rw [idx_wrap' (by omega), show i + 2 ^ p - fl + 2 ^ p - 1 = (i + 1 + 2 ^ p - (fl + 2)) + 2 ^ p by omega, Nat.add_mod_right]

theorem linIdxSimd_eq {i fl p k : Nat} (hp : p ≤ 32) (hk : k < 8) (h2 : fl + 9 ≤ 2 ^ p) :
    linIdxSimd i k fl (2 ^ p - 1) = ((i + 2 ^ p - (fl + 1 + (7 - k))) % 2 ^ p, (i + 2 ^ p - (fl + 2 + (7 - k))) % 2 ^ p) := by
  have e1 : and32 ((i : Int) - ((8 - k : Nat) : Int) - fl) (2 ^ p - 1) = (i + 2 ^ p - (fl + 1 + (7 - k))) % 2 ^ p := by
    rw [show ((i : Int) - ((8 - k : Nat) : Int) - fl) = (i : Int) - ((fl + 1 + (7 - k) : Nat) : Int) by omega]
    exact and32_sub hp (by omega)
  have hz : ∀ z c : Nat, c ≤ 2 → and32 (((z % 2 ^ p : Nat) : Int) - (c : Int)) (2 ^ p - 1) = (z + 2 ^ p - c) % 2 ^ p := by
    intro z c hc
    rw [and32_sub hp (by omega), idx_wrap' (by omega)]
  unfold linIdxSimd
  simp only [e1]
  refine Prod.ext rfl ?_
  show and32 (((_ % 2 ^ p : Nat) : Int) - ((1 : Nat) : Int)) (2 ^ p - 1) = (i + 2 ^ p - (fl + 2 + (7 - k))) % 2 ^ p
  rw [hz _ 1 (by omega), show i + 2 ^ p - (fl + 1 + (7 - k)) + 2 ^ p - 1 = (i + 2 ^ p - (fl + 2 + (7 - k))) + 2 ^ p by omega,
    Nat.add_mod_right]

/-- States with enough buffer for scalar processing (what `set_sample_rate` allocates). -/
structure LinValid (M room : Nat) (s : Line α) : Prop where
  valid : s.Valid
  pow2 : ∃ p, p ≤ 31 ∧ s.buf.length = 2 ^ p
  room : M + room ≤ s.buf.length

/-- Clamped delays have at most `M` whole samples. -/
def TapOps.BoundedAbove (O : TapOps α) (M : Nat) : Prop := ∀ x, O.fl (O.pos x) ≤ M

/-- Specification of linear interpolation. -/
def linSpec (O : TapOps α) {n : Nat} (back : Nat → α) (x : Frame α (n + 1)) : α :=
  (List.finRange n).foldl (fun acc t =>
    let pos := O.pos (x t.succ)
    let m := O.fl pos
    O.add acc (O.lrp (back m) (back (m + 1)) (O.frac pos))) O.zero

theorem LinValid.push {M r : Nat} {s : Line α} (hs : LinValid M r s) (x : α) : LinValid M r (s.push x) :=
  ⟨hs.valid.push x, by rw [Line.push_length]; exact hs.pow2, by rw [Line.push_length]; exact hs.room⟩

theorem LinValid.pushes {M r : Nat} {s : Line α} (hs : LinValid M r s) (x : Nat → α) (n : Nat) : LinValid M r (s.pushes x n) :=
  ⟨hs.valid.pushes x n, by rw [Line.pushes_length]; exact hs.pow2, by rw [Line.pushes_length]; exact hs.room⟩

theorem LinValid.reset {M r : Nat} {s : Line α} (hs : LinValid M r s) (zero : α) : LinValid M r (s.reset zero) :=
  ⟨hs.valid.reset zero, by simpa [Line.reset] using hs.pow2, by simpa [Line.reset] using hs.room⟩

theorem linTick_eq (O : TapOps α) {M r : Nat} (hr2 : 2 ≤ r) (hO : O.BoundedAbove M) (n : Nat) {s : Line α} (hs : LinValid M r s) (x : Frame α (n + 1)) :
    linTick O n s x = (s.push (x 0), fun _ => linSpec O (fun d => (s.push (x 0)).ago O.zero (d + 1)) x) := by
  obtain ⟨p, hp, hL⟩ := hs.pow2
  have hi : s.i < 2 ^ p := hL ▸ hs.valid
  have hr := hs.room
  unfold linTick
  refine Prod.ext (pushMask_eq (by omega) hL hs.valid _) (funext fun _ => ?_)
  show List.foldl _ _ _ = List.foldl _ _ _
  refine foldl_congr_mem _ _ _ (fun acc t => ?_) _
  have b2 := hO (x t.succ)
  show O.add acc (linRead O _ (linIdx s.i (O.fl (O.pos (x t.succ))) (s.buf.length - 1)) _) = O.add acc _
  congr 1
  generalize hm : O.fl (O.pos (x t.succ)) = m at b2
  beta_reduce
  rw [ago_eq_push _ _ (by omega), ago_eq_push _ _ (by omega), hL, linIdx_eq (by omega) hi (by omega)]
  rfl

theorem linClosed (O : TapOps α) {M r : Nat} (hr : 2 ≤ r) (hO : O.BoundedAbove M) (n : Nat) : (linNode O n).Closed (LinValid M r) where
  reset s hs := hs.reset _
  tick s x hs := by
    show LinValid M r (linTick O n s x).1
    rw [linTick_eq O hr hO n hs]; exact hs.push _

theorem lin_st (O : TapOps α) {M r : Nat} (hr : 2 ≤ r) (hO : O.BoundedAbove M) (n : Nat) {s : Line α} (hs : LinValid M r s) (w : Nat → Frame α (n + 1)) (k : Nat) :
    (Mealy.mk (Line α) (linTick O n)).st s w k = s.pushes (fun j => w j 0) k := by
  induction k with
  | zero => rfl
  | succ k ih =>
    show (linTick O n ((Mealy.mk (Line α) (linTick O n)).st s w k) (w k)).1 = _
    rw [ih, linTick_eq O hr hO n (hs.pushes _ k)]; rfl

theorem lin_out (O : TapOps α) {M r : Nat} (hr : 2 ≤ r) (hO : O.BoundedAbove M) (n : Nat) {s : Line α} (hs : LinValid M r s) (w : Nat → Frame α (n + 1)) (k : Nat) :
    (Mealy.mk (Line α) (linTick O n)).out s w k
      = fun _ => linSpec O (fun d => (s.pushes (fun j => w j 0) (k + 1)).ago O.zero (d + 1)) (w k) := by
  show (linTick O n ((Mealy.mk (Line α) (linTick O n)).st s w k) (w k)).2 = _
  rw [lin_st O hr hO n hs, linTick_eq O hr hO n (hs.pushes _ k)]; rfl

theorem linItem_exact (O : TapOps α) {M : Nat} (hO : O.BoundedAbove M) (n : Nat) : ItemExact (linItem O n) (linTick O n) (LinValid M 9) := by
  intro s x hs
  obtain ⟨p, hp, hL⟩ := hs.pow2
  have e8 : push8 s (fun j => x j 0) = s.pushes (fun j => x j 0) 8 := push8_eq (by omega) hL hs.valid _
  refine ⟨e8.trans (lin_st O (by omega) hO n hs x 8).symm, fun k hk => ?_⟩
  rw [lin_out O (by omega) hO n hs]
  funext c
  show List.foldl _ _ _ = List.foldl _ _ _
  refine foldl_congr_mem _ _ _ (fun acc t => ?_) _
  show O.add acc _ = O.add acc _
  congr 1
  have b2 := hO (x k t.succ)
  have hr := hs.room
  have hL8 : (s.pushes (fun j => x j 0) 8).buf.length = 2 ^ p := by rw [Line.pushes_length]; exact hL
  rw [e8, hL8]
  generalize hm : O.fl (O.pos (x k t.succ)) = m at b2
  rw [linIdxSimd_eq (by omega) hk (by omega)]
  have hag : ∀ d, 1 ≤ d → d ≤ m + 2 → (s.pushes (fun j => x j 0) 8).buf.getD (((s.pushes (fun j => x j 0) 8).i + 2 ^ p - (d + (7 - k))) % 2 ^ p) O.zero
      = (s.pushes (fun j => x j 0) (k + 1)).ago O.zero d := by
    intro d h1 h2
    have := Line.ago_later hs.valid O.zero (fun j => x j 0) (n := k + 1) (m := 8) (d := d) (by omega) h1 (by omega)
    rw [← this]
    unfold Line.ago
    rw [hL8, show 8 - (k + 1) = 7 - k by omega]
  unfold linRead
  beta_reduce
  rw [hag (m + 1) (by omega) (by omega), hag (m + 2) (by omega) (by omega)]

/-- **C37, the part that holds always**: ticking computes the linear interpolation of past samples around the clamped delay. -/
theorem C37_tick_value (O : TapOps α) {M : Nat} (hO : O.BoundedAbove M) (n : Nat) (s : Line α) (hs : LinValid M 2 s) (w : Nat → Frame α (n + 1)) (k : Nat) :
    (linNode O n).ticks.out ((linNode O n).reset s) w k 0 = linSpec O (fun d => delayed O.zero d (fun j => w j 0) k) (w k) := by
  refine (congrFun (lin_out O le_rfl hO n (hs.reset O.zero) w k) 0).trans ?_
  refine foldl_congr_mem _ _ _ (fun acc t => ?_) _
  have b2 := hO (w k t.succ)
  have hr := hs.room
  have hag : ∀ d, d < s.buf.length → ((s.reset O.zero).pushes (fun j => w j 0) (k + 1)).ago O.zero (d + 1) = delayed O.zero d (fun j => w j 0) k := by
    intro d hd
    rw [Line.ago_fed hs.valid O.zero _ _ (by omega) (by omega)]
    unfold delayed
    by_cases h : d ≤ k
    · rw [if_pos h, if_pos (by omega)]; congr 1; omega
    · rw [if_neg h, if_neg (by omega)]
  simp only []
  rw [hag _ (by omega), hag _ (by omega)]

/-- **C37, partial**: block processing equals ticking when the buffer has seven samples of headroom. Missing: the code allocates only
`max delay + 2` rounded up to a power of two, which need not leave the headroom; see `C37_violation`. -/
theorem C37_block_partial (O : TapOps α) {M : Nat} (hO : O.BoundedAbove M) (n : Nat) : BlockEqualsTickOn (linNode O n) (LinValid M 9) :=
  blockEqualsTickOn_of_exact (linClosed O (by omega) hO n)
    (fun g s size inp out _ hs => simdProcess_exact (fun s x hs => (linClosed O (by omega) hO n).tick s x hs) (linItem_exact O hO n) g s size inp out hs)

theorem linSetup_valid (zero : α) {c r : Nat} (hr : c + r ≤ Chan.nextPowerOfTwo (c + 2)) (hc : c + 2 ≤ 2 ^ 31) : LinValid c r (linSetup zero c) := by
  have hle := Chan.le_nextPowerOfTwo (c + 2)
  obtain ⟨p, hp⟩ := Chan.isPow2 (c + 2)
  have hle2 := (Chan.C27_capacity (c + 2) 31 (by omega)).2
  refine ⟨?_, ⟨p, ?_, ?_⟩, ?_⟩
  · simp only [Line.Valid, linSetup, List.length_replicate]; omega
  · rw [hp] at hle2; exact (Nat.pow_le_pow_iff_right (by omega)).1 hle2
  · simpa [linSetup] using hp
  · simpa [linSetup] using hr

/-- A maximum delay of 20 samples happens to leave enough room (32 sample buffer). -/
example : LinValid 20 9 (linSetup (0 : Int) 20) := linSetup_valid 0 (by decide) (by decide)

/-- Clamped position over the reals, `delay.rs:453`: `clamp(min_delay, max_delay, x) * sample_rate`. -/
noncomputable def realLinPos (minD maxD sr x : ℝ) : ℝ := min (max x minD) maxD * sr

/-- **C37.** A complete instance: real numbers, the code's clamping, the buffer as allocated. Ticking interpolates the past samples around the clamped
delay, whatever the maximum delay; the buffer that is allocated reaches back far enough. -/
theorem C37_real (minD maxD sr : ℝ) (hsr : 0 < sr) (hbig : ⌈maxD * sr⌉₊ + 2 ≤ 2 ^ 31) (O : TapOps ℝ) (hpos : O.pos = realLinPos minD maxD sr)
    (hfl : O.fl = fun x => ⌊x⌋₊) (n : Nat) (w : Nat → Frame ℝ (n + 1)) (k : Nat) :
    (linNode O n).ticks.out (linSetup O.zero ⌈maxD * sr⌉₊) w k 0 = linSpec O (fun d => delayed O.zero d (fun j => w j 0) k) (w k) := by
  have hO : O.BoundedAbove ⌈maxD * sr⌉₊ := by
    intro x
    rw [hpos, hfl]
    exact (Nat.floor_le_floor (mul_le_mul_of_nonneg_right (min_le_right _ _) hsr.le)).trans (Nat.floor_le_ceil _)
  have hv : LinValid ⌈maxD * sr⌉₊ 2 (linSetup O.zero ⌈maxD * sr⌉₊) := linSetup_valid _ (Chan.le_nextPowerOfTwo _) hbig
  have := C37_tick_value O hO n _ hv w k
  have e : (linNode O n).reset (linSetup O.zero ⌈maxD * sr⌉₊) = linSetup O.zero ⌈maxD * sr⌉₊ := by
    show Line.reset _ _ = _
    simp [Line.reset, linSetup]
  rwa [e] at this

/-- **C37**, blocks, partial: with the buffer as allocated blocks equal ticks if rounding up to a power of two leaves seven samples of headroom. Missing:
the other maximum delays, see `C37_violation`. -/
theorem C37_real_block_partial (minD maxD sr : ℝ) (hsr : 0 < sr) (hbig : ⌈maxD * sr⌉₊ + 2 ≤ 2 ^ 31)
    (hroom : ⌈maxD * sr⌉₊ + 9 ≤ Chan.nextPowerOfTwo (⌈maxD * sr⌉₊ + 2)) (O : TapOps ℝ) (hpos : O.pos = realLinPos minD maxD sr)
    (hfl : O.fl = fun x => ⌊x⌋₊) (n : Nat) (w : Nat → Frame ℝ (n + 1)) (cs : List (Call ℝ (n + 1) 1)) (hcs : ∀ c ∈ cs, c.ok) :
    ((linNode O n).exec w cs 0 (linSetup O.zero ⌈maxD * sr⌉₊)).2 = ((linNode O n).exec w (unblock cs) 0 (linSetup O.zero ⌈maxD * sr⌉₊)).2 := by
  have hO : O.BoundedAbove ⌈maxD * sr⌉₊ := by
    intro x
    rw [hpos, hfl]
    exact (Nat.floor_le_floor (mul_le_mul_of_nonneg_right (min_le_right _ _) hsr.le)).trans (Nat.floor_le_ceil _)
  exact C37_block_partial O hO n w cs hcs _ (linSetup_valid _ hroom hbig)

/-- A maximum delay of 20 samples at a rate of 1. -/
example : ⌈(20 : ℝ) * 1⌉₊ + 9 ≤ Chan.nextPowerOfTwo (⌈(20 : ℝ) * 1⌉₊ + 2) := by
  rw [mul_one, show (20 : ℝ) = ((20 : ℕ) : ℝ) by norm_num, Nat.ceil_natCast]; decide

/-- Whole sample delays between 0 and `c`. -/
def intLin (c : Nat) : TapOps Int where
  zero := 0
  add := (· + ·)
  pos x := max 0 (min c x)
  fl x := x.toNat
  frac x := x - x.toNat
  spl _ y _ _ _ := y
  lrp y _ _ := y

/-- **C37, negation**: with a maximum delay of five samples, processing a block of eight samples gives a different output than ticking.
The first lane reads sample 8 places back in an 8-sample buffer. -/
theorem C37_violation : ∃ (w : Nat → Frame Int 2) (cs : List (Call Int 2 1)), (∀ c ∈ cs, c.ok) ∧
    ((linNode (intLin 5) 1).exec w cs 0 (linSetup 0 5)).2 ≠ ((linNode (intLin 5) 1).exec w (unblock cs) 0 (linSetup 0 5)).2 := by
  refine ⟨fun k c => if c = 0 then 10 + k else 5, [.block 8 (fun _ _ => 0) (fun _ _ => 0) (fun _ _ _ => 0)], ?_, ?_⟩
  · intro c hc; rw [List.mem_singleton.1 hc]; show 8 ≤ 64; decide
  · intro h
    have := congrArg (fun l => (l.map (fun f => f 0)).head?) h
    revert this
    decide

end Fundsp.Delay
