import Verif.Core.Simd
import Verif.Chan.Model

/-! Circular buffers shared by the delay units: `buffer` and write index `i` (`delay.rs:71-78,147-160,388-399`,
`feedback.rs:283-304`). -/

namespace Fundsp.Delay

/-- A circular buffer and its write index. `delay.rs:71-74`. -/
structure Line (β : Type) where
  buf : List β
  i : Nat
deriving Repr, DecidableEq

variable {β : Type}

/-- `buffer.fill(0.0); i = 0`: `delay.rs:92-95`. -/
def Line.reset (zero : β) (s : Line β) : Line β := ⟨List.replicate s.buf.length zero, 0⟩

/-- `self.buffer[self.i] = x; self.i = (self.i + 1) & mask`: `delay.rs:213,238` with a power of two length. The wrapped increment
of `Delay` (`delay.rs:110-113`) is the same function; see `delayIndex`. -/
def Line.push (s : Line β) (x : β) : Line β := ⟨s.buf.set s.i x, (s.i + 1) % s.buf.length⟩

/-- Specification helper: the value pushed `d` pushes ago. -/
def Line.ago (zero : β) (s : Line β) (d : Nat) : β := s.buf.getD ((s.i + s.buf.length - d) % s.buf.length) zero

def Line.Valid (s : Line β) : Prop := s.i < s.buf.length

theorem Line.push_length (s : Line β) (x : β) : (s.push x).buf.length = s.buf.length := by simp [Line.push]

theorem Line.Valid.push {s : Line β} (h : s.Valid) (x : β) : (s.push x).Valid := by
  have : 0 < s.buf.length := Nat.lt_of_le_of_lt (Nat.zero_le _) h
  show (s.i + 1) % s.buf.length < (s.push x).buf.length
  rw [s.push_length]; exact Nat.mod_lt _ this

theorem Line.Valid.reset {s : Line β} (h : s.Valid) (zero : β) : (s.reset zero).Valid := by
  have : 0 < s.buf.length := Nat.lt_of_le_of_lt (Nat.zero_le _) h
  simpa [Line.Valid, Line.reset] using this

private theorem mod_wrap {a L : Nat} (h : a < L) : (a + L) % L = a := by
  rw [Nat.add_mod_right, Nat.mod_eq_of_lt h]

theorem Line.ago_push_one {s : Line β} (h : s.Valid) (zero x : β) : (s.push x).ago zero 1 = x := by
  have h' : s.i < s.buf.length := h
  have e : ((s.i + 1) % s.buf.length + s.buf.length - 1) % s.buf.length = s.i := by
    by_cases hw : s.i + 1 < s.buf.length
    · rw [Nat.mod_eq_of_lt hw, show s.i + 1 + s.buf.length - 1 = s.i + s.buf.length by omega]; exact mod_wrap h'
    · have : s.i + 1 = s.buf.length := by omega
      rw [this, Nat.mod_self, Nat.zero_add, Nat.mod_eq_of_lt (by omega)]; omega
  show (s.buf.set s.i x).getD (((s.i + 1) % s.buf.length + (s.buf.set s.i x).length - 1) % (s.buf.set s.i x).length) zero = x
  rw [List.length_set, e, List.getD_eq_getElem?_getD]
  simp [h']

theorem Line.ago_push_succ {s : Line β} (h : s.Valid) (zero x : β) {d : Nat} (h1 : 1 ≤ d) (hd : d < s.buf.length) :
    (s.push x).ago zero (d + 1) = s.ago zero d := by
  have h' : s.i < s.buf.length := h
  have e : ((s.i + 1) % s.buf.length + s.buf.length - (d + 1)) % s.buf.length = (s.i + s.buf.length - d) % s.buf.length := by
    by_cases hw : s.i + 1 < s.buf.length
    · rw [Nat.mod_eq_of_lt hw]; congr 1; omega
    · have : s.i + 1 = s.buf.length := by omega
      rw [this, Nat.mod_self, Nat.zero_add]
      rw [show s.i + s.buf.length - d = (s.buf.length - (d + 1)) + s.buf.length by omega, Nat.add_mod_right]
  have hne : s.i ≠ (s.i + s.buf.length - d) % s.buf.length := by
    by_cases hw : d ≤ s.i
    · rw [show s.i + s.buf.length - d = (s.i - d) + s.buf.length by omega, Nat.add_mod_right, Nat.mod_eq_of_lt (by omega)]; omega
    · rw [Nat.mod_eq_of_lt (by omega)]; omega
  show (s.buf.set s.i x).getD (((s.i + 1) % s.buf.length + (s.buf.set s.i x).length - (d + 1)) % (s.buf.set s.i x).length) zero = _
  rw [List.length_set, e, List.getD_eq_getElem?_getD, List.getElem?_set_ne hne, ← List.getD_eq_getElem?_getD]
  rfl

/-- Pushes `x 0 .. x (n-1)`. -/
def Line.pushes (s : Line β) (x : Nat → β) : Nat → Line β
  | 0 => s
  | n + 1 => (s.pushes x n).push (x n)

theorem Line.pushes_length (s : Line β) (x : Nat → β) (n : Nat) : (s.pushes x n).buf.length = s.buf.length := by
  induction n with
  | zero => rfl
  | succ n ih => exact (Line.push_length _ _).trans ih

theorem Line.Valid.pushes {s : Line β} (h : s.Valid) (x : Nat → β) (n : Nat) : (s.pushes x n).Valid := by
  induction n with
  | zero => exact h
  | succ n ih => exact ih.push _

/-- What the buffer contains: the last pushes, then what was there before. -/
theorem Line.ago_pushes {s : Line β} (h : s.Valid) (zero : β) (x : Nat → β) (n : Nat) {d : Nat} (h1 : 1 ≤ d) (hd : d ≤ s.buf.length) :
    (s.pushes x n).ago zero d = if d ≤ n then x (n - d) else s.ago zero (d - n) := by
  induction n generalizing d with
  | zero => rw [if_neg (by omega)]; rfl
  | succ n ih =>
    have hv := h.pushes x n
    have hl := s.pushes_length x n
    by_cases hd1 : d = 1
    · subst hd1
      rw [if_pos (by omega)]
      exact Line.ago_push_one hv zero _
    · obtain ⟨e, rfl⟩ : ∃ e, d = e + 1 := ⟨d - 1, by omega⟩
      show ((s.pushes x n).push (x n)).ago zero (e + 1) = _
      rw [Line.ago_push_succ hv zero _ (by omega) (by omega), ih (by omega) (by omega)]
      by_cases he : e ≤ n
      · rw [if_pos he, if_pos (by omega)]; congr 1; omega
      · rw [if_neg he, if_neg (by omega)]; congr 1; omega

/-- A later state remembers the same samples further back. -/
theorem Line.ago_later {s : Line β} (h : s.Valid) (zero : β) (x : Nat → β) {n m d : Nat} (hnm : n ≤ m) (h1 : 1 ≤ d)
    (hd : d + (m - n) ≤ s.buf.length) : (s.pushes x m).ago zero (d + (m - n)) = (s.pushes x n).ago zero d := by
  rw [Line.ago_pushes h zero x m (by omega) hd, Line.ago_pushes h zero x n h1 (by omega)]
  by_cases hd' : d ≤ n
  · rw [if_pos hd', if_pos (by omega)]; congr 1; omega
  · rw [if_neg hd', if_neg (by omega)]; congr 1; omega

theorem Line.ago_reset (zero : β) (s : Line β) (d : Nat) : (s.reset zero).ago zero d = zero := by
  unfold Line.ago Line.reset
  rw [List.getD_eq_getElem?_getD, List.getElem?_replicate]
  split <;> rfl

/-- The line that has been reset and then fed `x` holds past samples of `x`, and zero before the start. -/
theorem Line.ago_fed {s : Line β} (h : s.Valid) (zero : β) (x : Nat → β) (n : Nat) {d : Nat} (h1 : 1 ≤ d) (hd : d ≤ s.buf.length) :
    ((s.reset zero).pushes x n).ago zero d = if d ≤ n then x (n - d) else zero := by
  rw [Line.ago_pushes (h.reset zero) zero x n h1 (by simpa [Line.reset] using hd), Line.ago_reset]

/-! ### Index arithmetic of the code -/

/-- `a.wrapping_sub(b)` on 64-bit `usize`. -/
def wsub (a b : Nat) : Nat := (a + 2 ^ 64 - b) % 2 ^ 64
/-- `z as i32 & mask` in two's complement arithmetic on `i32`. -/
def and32 (z : Int) (mask : Nat) : Nat := (z % 2 ^ 32).toNat &&& mask

theorem wsub_and {p a b : Nat} (hp : p ≤ 63) (ha : a < 2 ^ p) (hb : b ≤ 2 ^ p) :
    wsub a b &&& (2 ^ p - 1) = (a + 2 ^ p - b) % 2 ^ p := by
  obtain ⟨q, hq⟩ : ∃ q, 64 = p + (q + 1) := ⟨63 - p, by omega⟩
  have hpos : 0 < 2 ^ p := Nat.two_pow_pos p
  have h2 : (2:Nat) ^ 64 = 2 ^ p * (2 * 2 ^ q) := by rw [hq, Nat.pow_add, Nat.pow_succ]; ring_nf
  have hq1 : 1 ≤ 2 ^ q := Nat.one_le_two_pow
  unfold wsub
  rw [Nat.and_two_pow_sub_one_eq_mod, h2, Nat.mod_mul_right_mod]
  obtain ⟨t, ht⟩ : ∃ t, 2 * 2 ^ q = t + 1 := ⟨2 * 2 ^ q - 1, by omega⟩
  rw [ht, Nat.mul_succ, show a + (2 ^ p * t + 2 ^ p) - b = (a + 2 ^ p - b) + 2 ^ p * t by omega, Nat.add_mul_mod_self_left]

theorem wadd_and {p a : Nat} (hp : p ≤ 63) (ha : a < 2 ^ p) :
    (a + 1) % 2 ^ 64 &&& (2 ^ p - 1) = (a + 1) % 2 ^ p := by
  have : (2:Nat) ^ p ≤ 2 ^ 63 := Nat.pow_le_pow_right (by omega) hp
  have h3 : (2:Nat)^63 < 2^64 := by decide
  rw [Nat.and_two_pow_sub_one_eq_mod, Nat.mod_eq_of_lt (a := a + 1) (b := 2 ^ 64) (by omega)]

theorem and32_eq {p : Nat} (hp : p ≤ 32) (z : Int) : and32 z (2 ^ p - 1) = (z % (2 ^ p : Nat)).toNat := by
  unfold and32
  rw [Nat.and_two_pow_sub_one_eq_mod]
  have hn : 0 ≤ z % 2 ^ 32 := Int.emod_nonneg _ (by decide)
  have hd : ((2 ^ p : Nat) : Int) ∣ 2 ^ 32 := by
    have : (2 ^ p : Nat) ∣ 2 ^ 32 := Nat.pow_dvd_pow 2 hp
    exact_mod_cast Int.natCast_dvd_natCast.2 this
  have hpos : (0 : Int) < (2 ^ p : Nat) := by exact_mod_cast Nat.two_pow_pos p
  apply Int.ofNat.inj
  show (((z % 2 ^ 32).toNat % 2 ^ p : Nat) : Int) = ((z % (2 ^ p : Nat)).toNat : Int)
  rw [Int.natCast_emod, Int.toNat_of_nonneg hn, Int.toNat_of_nonneg (Int.emod_nonneg _ (by omega)), Int.emod_emod_of_dvd _ hd]

/-- Reading `i - d` positions back through `i32` arithmetic. -/
theorem and32_sub {p i d : Nat} (hp : p ≤ 32) (hd : d ≤ i + 2 ^ p) : and32 ((i : Int) - d) (2 ^ p - 1) = (i + 2 ^ p - d) % 2 ^ p := by
  rw [and32_eq hp]
  have : ((i : Int) - d) % (2 ^ p : Nat) = ((i + 2 ^ p - d : Nat) : Int) % (2 ^ p : Nat) := by
    rw [show ((i + 2 ^ p - d : Nat) : Int) = ((i : Int) - d) + (2 ^ p : Nat) by omega]
    rw [Int.add_emod_right]
  rw [this, ← Int.natCast_emod, Int.toNat_natCast]

end Fundsp.Delay
