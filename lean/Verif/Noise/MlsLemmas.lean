import Verif.Noise.Mls
import Mathlib.Dynamics.PeriodicPts.Defs
import Mathlib.Data.Nat.Prime.Basic
import Mathlib.Data.Nat.Sqrt
import Mathlib.Algebra.BigOperators.Group.List.Lemmas
import Mathlib.Data.Nat.Factorization.Basic
import Mathlib.Data.Finset.Card
import Mathlib.Order.Interval.Finset.Nat
import Mathlib.Tactic.NormNum.Prime
import Mathlib.Tactic.Ring
import Mathlib.Tactic.IntervalCases

/-! # Linear feedback shift registers -/

namespace Fundsp.Noise

/-! ## Exclusive or of sequences -/

/-- Exclusive or of the first `k` values. -/
def bx (k : Nat) (f : Nat → Bool) : Bool := match k with
  | 0 => false
  | k + 1 => bx k f ^^ f k

def nx (k : Nat) (f : Nat → Nat) : Nat := match k with
  | 0 => 0
  | k + 1 => nx k f ^^^ f k

theorem nx_bit (k : Nat) (f : Nat → Nat) (j : Nat) : (nx k f).testBit j = bx k (fun i => (f i).testBit j) := by
  induction k with
  | zero => simp [nx, bx]
  | succ k ih => rw [nx, bx, Nat.testBit_xor, ih]

theorem bx_congr {k : Nat} {f g : Nat → Bool} (h : ∀ i, i < k → f i = g i) : bx k f = bx k g := by
  induction k with
  | zero => rfl
  | succ k ih => rw [bx, bx, ih (fun i hi => h i (by omega)), h k (by omega)]

theorem nx_congr {k : Nat} {f g : Nat → Nat} (h : ∀ i, i < k → f i = g i) : nx k f = nx k g := by
  induction k with
  | zero => rfl
  | succ k ih => rw [nx, nx, ih (fun i hi => h i (by omega)), h k (by omega)]

theorem bx_xor (k : Nat) (f g : Nat → Bool) : bx k (fun i => f i ^^ g i) = (bx k f ^^ bx k g) := by
  induction k with
  | zero => rfl
  | succ k ih => rw [bx, bx, bx, ih]; cases bx k f <;> cases bx k g <;> cases f k <;> cases g k <;> rfl

theorem nx_xor (k : Nat) (f g : Nat → Nat) : nx k (fun i => f i ^^^ g i) = nx k f ^^^ nx k g := by
  apply Nat.eq_of_testBit_eq
  intro j
  simp only [Nat.testBit_xor, nx_bit, ← bx_xor]

theorem bx_head (k : Nat) (f : Nat → Bool) : bx (k + 1) f = (f 0 ^^ bx k (fun i => f (i + 1))) := by
  induction k with
  | zero => simp [bx]
  | succ k ih => rw [bx, ih, bx]; cases f 0 <;> simp

theorem nx_head (k : Nat) (f : Nat → Nat) : nx (k + 1) f = f 0 ^^^ nx k (fun i => f (i + 1)) := by
  apply Nat.eq_of_testBit_eq
  intro j
  simp only [Nat.testBit_xor, nx_bit, bx_head]

theorem bx_reflect (n : Nat) (f : Nat → Bool) : bx n (fun i => f (n - 1 - i)) = bx n f := by
  induction n with
  | zero => rfl
  | succ n ih =>
    rw [bx_head, bx]
    have : bx n (fun i => f (n + 1 - 1 - (i + 1))) = bx n (fun i => f (n - 1 - i)) := bx_congr (fun i _ => congrArg f (by omega))
    rw [this, ih, Bool.xor_comm]
    rfl

theorem bx_extend {m n : Nat} (h : n ≤ m) (f : Nat → Bool) (hf : ∀ i, n ≤ i → f i = false) : bx m f = bx n f := by
  induction m with
  | zero => rw [Nat.le_zero.1 h]
  | succ m ih =>
    rcases Nat.lt_or_ge m n with h' | h'
    · rw [show n = m + 1 by omega]
    · rw [bx, ih h', hf m h']; simp

theorem bx_false (k : Nat) : bx k (fun _ => false) = false := by
  induction k with
  | zero => rfl
  | succ k ih => rw [bx, ih]; rfl

theorem nx_zero (k : Nat) : nx k (fun _ => 0) = 0 := by
  induction k with
  | zero => rfl
  | succ k ih => rw [nx, ih]; rfl

theorem sum_bx (k : Nat) (f : Nat → Bool) : (((List.range k).map (fun i => (f i).toNat)).sum) % 2 = (bx k f).toNat := by
  induction k with
  | zero => rfl
  | succ k ih =>
    rw [List.range_succ, List.map_append, List.sum_append, Nat.add_mod, ih, bx, List.map_singleton, List.sum_singleton]
    cases bx k f <;> cases f k <;> rfl

theorem countOnes_parity (x : Nat) : countOnes x &&& 1 = (bx 32 x.testBit).toNat := by
  rw [Nat.and_one_is_mod, countOnes]; exact sum_bx 32 x.testBit

/-! ## The step of a register -/

/-- Step of a register of size `n`. -/
def lfsr (n poly s : Nat) : Nat := (((s <<< 1) % 2 ^ 32) ||| (countOnes (poly &&& s) &&& 1)) &&& ((1 <<< n) - 1)

theorem lfsr_bit {n : Nat} (hn : n ≤ 32) (poly s i : Nat) :
    (lfsr n poly s).testBit i = (decide (i < n) && (match i with | 0 => bx 32 (poly &&& s).testBit | i + 1 => s.testBit i)) := by
  have h1 : (1 <<< n) - 1 = 2 ^ n - 1 := by rw [Nat.one_shiftLeft]
  rw [lfsr, h1, Nat.testBit_and, Nat.testBit_two_pow_sub_one, countOnes_parity, Nat.testBit_or]
  have h2 : ∀ b : Bool, ∀ i, (b.toNat).testBit (i + 1) = false := by intro b i; cases b <;> simp [Nat.testBit_succ]
  have h3 : ∀ b : Bool, (b.toNat).testBit 0 = b := by intro b; cases b <;> rfl
  rcases i with _ | i
  · rw [h3, Nat.testBit_mod_two_pow, Nat.testBit_shiftLeft]
    simp [Bool.and_comm]
  · rw [h2, Nat.testBit_mod_two_pow, Nat.testBit_shiftLeft]
    by_cases hi : i + 1 < n
    · have : i + 1 < 32 := by omega
      simp [hi, this]
    · simp [hi]

theorem lfsr_lt {n : Nat} (poly s : Nat) : lfsr n poly s < 2 ^ n := by
  have h1 : (1 <<< n) - 1 = 2 ^ n - 1 := by rw [Nat.one_shiftLeft]
  rw [lfsr, h1, Nat.and_two_pow_sub_one_eq_mod]
  exact Nat.mod_lt _ (Nat.two_pow_pos n)

section
variable {n : Nat} (hn : n ≤ 32) (poly : Nat)
include hn

theorem lfsr_xor (a b : Nat) : lfsr n poly (a ^^^ b) = lfsr n poly a ^^^ lfsr n poly b := by
  apply Nat.eq_of_testBit_eq
  intro i
  rw [Nat.testBit_xor, lfsr_bit hn, lfsr_bit hn, lfsr_bit hn]
  have : bx 32 (poly &&& (a ^^^ b)).testBit = (bx 32 (poly &&& a).testBit ^^ bx 32 (poly &&& b).testBit) := by
    rw [← bx_xor]
    refine bx_congr (fun i _ => ?_)
    simp only [Nat.testBit_and, Nat.testBit_xor]
    cases poly.testBit i <;> simp
  rcases i with _ | i
  · simp only [this]; cases decide (0 < n) <;> simp
  · simp only [Nat.testBit_xor]; cases decide (i + 1 < n) <;> simp

theorem lfsr_zero : lfsr n poly 0 = 0 := by
  have := lfsr_xor hn poly 0 0
  simpa using this

theorem iter_xor (k a b : Nat) : (lfsr n poly)^[k] (a ^^^ b) = (lfsr n poly)^[k] a ^^^ (lfsr n poly)^[k] b := by
  induction k generalizing a b with
  | zero => rfl
  | succ k ih => rw [Function.iterate_succ_apply, lfsr_xor hn, ih]; rfl

theorem iter_zero (k : Nat) : (lfsr n poly)^[k] 0 = 0 := by
  induction k with
  | zero => rfl
  | succ k ih => rw [Function.iterate_succ_apply, lfsr_zero hn, ih]

theorem lfsr_nx (k : Nat) (f : Nat → Nat) : lfsr n poly (nx k f) = nx k (fun i => lfsr n poly (f i)) := by
  induction k with
  | zero => exact lfsr_zero hn poly
  | succ k ih => rw [nx, lfsr_xor hn, ih]; rfl

omit hn in
theorem iter_lt {s : Nat} (hs : s < 2 ^ n) (k : Nat) : (lfsr n poly)^[k] s < 2 ^ n := by
  cases k with
  | zero => exact hs
  | succ k => rw [Function.iterate_succ_apply']; exact lfsr_lt poly _

theorem iter_shift (s : Nat) (d i : Nat) (h : i + d < n) : ((lfsr n poly)^[d] s).testBit (i + d) = s.testBit i := by
  induction d generalizing i with
  | zero => rfl
  | succ d ih =>
    rw [Function.iterate_succ_apply', ← Nat.add_assoc, lfsr_bit hn]
    simp only
    rw [ih i (by omega)]
    have : i + d + 1 < n := by omega
    simp [this]

/-- The characteristic equation. -/
theorem char_eq {f : Nat} (hp : poly < 2 ^ n) (hf : ∀ i, i < n → f.testBit i = poly.testBit (n - 1 - i)) (hfn : f.testBit n = true) {s : Nat} (hs : s < 2 ^ n) :
    nx (n + 1) (fun i => if f.testBit i then (lfsr n poly)^[i] s else 0) = 0 := by
  apply Nat.eq_of_testBit_eq
  intro j
  rw [nx_bit, Nat.zero_testBit]
  have hbit : ∀ i, (if f.testBit i then (lfsr n poly)^[i] s else 0).testBit j = (f.testBit i && ((lfsr n poly)^[i] s).testBit j) := by
    intro i; cases f.testBit i <;> simp
  simp only [hbit]
  rcases Nat.lt_or_ge j n with hj | hj
  · rw [bx, hfn, Bool.true_and]
    -- the last term
    have h1 : ((lfsr n poly)^[n] s).testBit j = bx n (fun i => poly.testBit i && ((lfsr n poly)^[n - 1 - j] s).testBit i) := by
      have e1 : (lfsr n poly)^[n] s = (lfsr n poly)^[j] (lfsr n poly ((lfsr n poly)^[n - 1 - j] s)) := by
        rw [← Function.iterate_succ_apply' (lfsr n poly), ← Function.iterate_add_apply]
        congr 1; omega
      have := iter_shift hn poly (lfsr n poly ((lfsr n poly)^[n - 1 - j] s)) j 0 (by omega)
      rw [Nat.zero_add] at this
      rw [e1, this, lfsr_bit hn]
      have h0 : 0 < n := by omega
      simp only [h0, decide_true, Bool.true_and]
      rw [bx_extend hn]
      · exact bx_congr (fun i _ => Nat.testBit_and _ _ _)
      · intro i hi
        rw [Nat.testBit_and, Nat.testBit_eq_false_of_lt (lt_of_lt_of_le hp (Nat.pow_le_pow_right (by omega) hi))]; rfl
    -- symmetry
    have h2 : ∀ i, i < n → ((lfsr n poly)^[n - 1 - j] s).testBit i = ((lfsr n poly)^[n - 1 - i] s).testBit j := by
      intro i hi
      rcases Nat.le_total i j with h | h
      · have := iter_shift hn poly ((lfsr n poly)^[n - 1 - j] s) (j - i) i (by omega)
        rw [← Function.iterate_add_apply, show j - i + (n - 1 - j) = n - 1 - i by omega, show i + (j - i) = j by omega] at this
        exact this.symm
      · have := iter_shift hn poly ((lfsr n poly)^[n - 1 - i] s) (i - j) j (by omega)
        rw [← Function.iterate_add_apply, show i - j + (n - 1 - i) = n - 1 - j by omega, show j + (i - j) = i by omega] at this
        exact this
    have h3 : bx n (fun i => f.testBit i && ((lfsr n poly)^[i] s).testBit j) = ((lfsr n poly)^[n] s).testBit j := by
      rw [h1, ← bx_reflect n (fun i => poly.testBit i && ((lfsr n poly)^[n - 1 - j] s).testBit i)]
      refine bx_congr (fun i hi => ?_)
      rw [hf i hi, h2 (n - 1 - i) (by omega), show n - 1 - (n - 1 - i) = i by omega]
    rw [h3]; simp
  · have : ∀ i, ((lfsr n poly)^[i] s).testBit j = false := fun i =>
      Nat.testBit_eq_false_of_lt (lt_of_lt_of_le (iter_lt poly hs i) (Nat.pow_le_pow_right (by omega) hj))
    simp only [this, Bool.and_false]
    exact bx_false _

end

/-! ## Polynomials modulo the characteristic polynomial -/

/-- Multiplication by `x` modulo `f` of degree `n`. -/
def xtime (n f g : Nat) : Nat := if (g <<< 1).testBit n then (g <<< 1) ^^^ f else g <<< 1

/-- `sum of cur * x^j` over the bits of `g` from `i` on. -/
def mulL (n f g : Nat) : Nat → Nat → Nat → Nat
  | 0, _, _ => 0
  | k + 1, i, cur => (if g.testBit i then cur else 0) ^^^ mulL n f g k (i + 1) (xtime n f cur)

/-- Multiplication modulo `f`. -/
def mulmod (n f g h : Nat) : Nat := mulL n f g n 0 h

/-- `x^k` modulo `f`. -/
def powx (n f : Nat) : Nat → Nat → Nat
  | 0, _ => 1
  | m + 1, k =>
    if k = 0 then 1
    else if k % 2 = 1 then xtime n f (mulmod n f (powx n f m (k / 2)) (powx n f m (k / 2)))
    else mulmod n f (powx n f m (k / 2)) (powx n f m (k / 2))

/-- A polynomial in the step, applied to a state. -/
def ev (n poly g v : Nat) : Nat := nx n (fun i => if g.testBit i then (lfsr n poly)^[i] v else 0)

section
variable {n : Nat} (hn : n ≤ 32) (poly : Nat)

theorem ev_xor_left (g h v : Nat) : ev n poly (g ^^^ h) v = ev n poly g v ^^^ ev n poly h v := by
  rw [ev, ev, ev, ← nx_xor]
  refine nx_congr (fun i _ => ?_)
  rw [Nat.testBit_xor]
  cases g.testBit i <;> cases h.testBit i <;> simp

theorem ev_zero_left (v : Nat) : ev n poly 0 v = 0 := by
  rw [ev]
  have : (fun i => if (0 : Nat).testBit i then (lfsr n poly)^[i] v else 0) = fun _ => 0 := by funext i; simp
  rw [this, nx_zero]

theorem ev_one (h1 : 1 ≤ n) (v : Nat) : ev n poly 1 v = v := by
  obtain ⟨m, rfl⟩ : ∃ m, n = m + 1 := ⟨n - 1, by omega⟩
  rw [ev, nx_head]
  have : (fun i => if (1 : Nat).testBit (i + 1) then (lfsr (m + 1) poly)^[i + 1] v else 0) = fun _ => 0 := by
    funext i; simp [Nat.testBit_succ]
  rw [this, nx_zero]; simp

include hn

theorem ev_zero_right (g : Nat) : ev n poly g 0 = 0 := by
  rw [ev]
  have : (fun i => if g.testBit i then (lfsr n poly)^[i] 0 else 0) = fun _ => 0 := by funext i; rw [iter_zero hn]; simp
  rw [this, nx_zero]

theorem lfsr_ev (g v : Nat) : lfsr n poly (ev n poly g v) = nx n (fun i => if g.testBit i then (lfsr n poly)^[i + 1] v else 0) := by
  rw [ev, lfsr_nx hn]
  refine nx_congr (fun i _ => ?_)
  split
  · rw [Function.iterate_succ_apply']
  · exact lfsr_zero hn poly

omit hn in
theorem ev_lt (g : Nat) {v : Nat} (hv : v < 2 ^ n) : ev n poly g v < 2 ^ n := by
  have : ∀ k, nx k (fun i => if g.testBit i then (lfsr n poly)^[i] v else 0) < 2 ^ n := by
    intro k
    induction k with
    | zero => exact Nat.two_pow_pos n
    | succ k ih =>
      refine Nat.xor_lt_two_pow ih ?_
      show (if g.testBit k then (lfsr n poly)^[k] v else 0) < 2 ^ n
      split
      · exact iter_lt poly hv k
      · exact Nat.two_pow_pos n
  exact this n

variable {f : Nat} (hp : poly < 2 ^ n) (hf : ∀ i, i < n → f.testBit i = poly.testBit (n - 1 - i)) (hfn : f.testBit n = true)
include hp hf hfn

theorem ev_xtime (g : Nat) {v : Nat} (hv : v < 2 ^ n) : ev n poly (xtime n f g) v = lfsr n poly (ev n poly g v) := by
  -- one more term, which vanishes
  have hbn : (xtime n f g).testBit n = false := by
    unfold xtime
    split
    · rename_i h; rw [Nat.testBit_xor, h, hfn]; rfl
    · rename_i h; simpa using h
  have h1 : ev n poly (xtime n f g) v = nx (n + 1) (fun i => if (xtime n f g).testBit i then (lfsr n poly)^[i] v else 0) := by
    rw [nx, hbn, ev]; simp
  have h2 : nx (n + 1) (fun i => if (g <<< 1).testBit i then (lfsr n poly)^[i] v else 0) = lfsr n poly (ev n poly g v) := by
    rw [lfsr_ev hn, nx_head]
    have e0 : (g <<< 1).testBit 0 = false := by rw [Nat.testBit_shiftLeft]; simp
    have e1 : ∀ i, (g <<< 1).testBit (i + 1) = g.testBit i := by intro i; rw [Nat.testBit_shiftLeft]; simp
    simp only [e0, e1]; simp
  rw [h1, ← h2]
  have hchar := char_eq hn poly hp hf hfn hv
  unfold xtime
  split
  · have : (fun i => if ((g <<< 1) ^^^ f).testBit i then (lfsr n poly)^[i] v else 0) =
        fun i => (if (g <<< 1).testBit i then (lfsr n poly)^[i] v else 0) ^^^ (if f.testBit i then (lfsr n poly)^[i] v else 0) := by
      funext i
      rw [Nat.testBit_xor]
      cases (g <<< 1).testBit i <;> cases f.testBit i <;> simp
    rw [this, nx_xor, hchar, Nat.xor_zero]
  · rfl

theorem ev_mulL (g : Nat) {v : Nat} (hv : v < 2 ^ n) (k : Nat) : ∀ i cur, ev n poly (mulL n f g k i cur) v =
    nx k (fun j => if g.testBit (i + j) then (lfsr n poly)^[j] (ev n poly cur v) else 0) := by
  induction k with
  | zero => intro i cur; exact ev_zero_left poly v
  | succ k ih =>
    intro i cur
    rw [mulL, ev_xor_left, ih, nx_head, ev_xtime hn poly hp hf hfn cur hv]
    congr 1
    · simp only [Nat.add_zero, Function.iterate_zero, id]
      split
      · rfl
      · exact ev_zero_left poly v
    · refine nx_congr (fun j _ => ?_)
      rw [show i + 1 + j = i + (j + 1) by omega, Function.iterate_succ_apply]

theorem ev_mulmod (g h : Nat) {v : Nat} (hv : v < 2 ^ n) : ev n poly (mulmod n f g h) v = ev n poly g (ev n poly h v) := by
  rw [mulmod, ev_mulL hn poly hp hf hfn g hv n 0 h, ev]
  refine nx_congr (fun i _ => ?_)
  rw [Nat.zero_add]

theorem ev_powx (h1 : 1 ≤ n) (m : Nat) : ∀ k, k < 2 ^ m → ∀ {v : Nat}, v < 2 ^ n → ev n poly (powx n f m k) v = (lfsr n poly)^[k] v := by
  induction m with
  | zero =>
    intro k hk v hv
    rw [show k = 0 by simpa using hk, powx, ev_one poly h1]; rfl
  | succ m ih =>
    intro k hk v hv
    have hk2 : k / 2 < 2 ^ m := by rw [Nat.pow_succ] at hk; omega
    have hsq : ev n poly (mulmod n f (powx n f m (k / 2)) (powx n f m (k / 2))) v = (lfsr n poly)^[k / 2 + k / 2] v := by
      rw [ev_mulmod hn poly hp hf hfn _ _ hv, ih _ hk2 hv, ih _ hk2 (iter_lt poly hv _), Function.iterate_add_apply]
    rw [powx]
    split
    · rename_i h; rw [h, ev_one poly h1]; rfl
    · split
      · rw [ev_xtime hn poly hp hf hfn _ hv, hsq, ← Function.iterate_succ_apply' (lfsr n poly)]
        congr 2; omega
      · rw [hsq]; congr 2; omega

end

/-! ## Certificates -/

/-- Characteristic polynomial, and prime factors of `2^n - 1` with inverses. -/
structure Cert where
  f : Nat
  factors : List (Nat × Nat)

/-- Check of a certificate, apart from primality. -/
def Cert.ok (n poly : Nat) (c : Cert) : Bool :=
  decide (poly < 2 ^ n) && (List.range n).all (fun i => c.f.testBit i == poly.testBit (n - 1 - i)) && c.f.testBit n &&
  powx n c.f n (2 ^ n - 1) == 1 && (c.factors.map Prod.fst).prod == 2 ^ n - 1 &&
  c.factors.all (fun q => mulmod n c.f q.2 (powx n c.f n ((2 ^ n - 1) / q.1) ^^^ 1) == 1)

/-- A certificate proves that the step has full period. -/
theorem Cert.period {n poly : Nat} (hn : n ≤ 32) (h1 : 1 ≤ n) (c : Cert) (hc : c.ok n poly = true) (hp : ∀ q ∈ c.factors, q.1.Prime) {v : Nat}
    (h0 : 0 < v) (hv : v < 2 ^ n) : Function.minimalPeriod (lfsr n poly) v = 2 ^ n - 1 := by
  simp only [Cert.ok, Bool.and_eq_true, decide_eq_true_eq, List.all_eq_true, List.mem_range, beq_iff_eq] at hc
  obtain ⟨⟨⟨⟨⟨c1, c2⟩, c3⟩, c4⟩, c5⟩, c6⟩ := hc
  have hlt : ∀ k, k ≤ 2 ^ n - 1 → k < 2 ^ n := fun k hk => by have := Nat.two_pow_pos n; omega
  have hN : (lfsr n poly)^[2 ^ n - 1] v = v := by
    rw [← ev_powx hn poly c1 c2 c3 h1 n _ (hlt _ (le_refl _)) hv, c4, ev_one poly h1]
  have hno : ∀ q ∈ c.factors, (lfsr n poly)^[(2 ^ n - 1) / q.1] v ≠ v := by
    intro q hq h
    have h2 : ev n poly (powx n c.f n ((2 ^ n - 1) / q.1) ^^^ 1) v = 0 := by
      rw [ev_xor_left, ev_powx hn poly c1 c2 c3 h1 n _ (hlt _ (Nat.div_le_self _ _)) hv, ev_one poly h1, h, Nat.xor_self]
    have h3 := ev_mulmod hn poly c1 c2 c3 q.2 (powx n c.f n ((2 ^ n - 1) / q.1) ^^^ 1) hv
    rw [c6 q hq, ev_one poly h1, h2, ev_zero_right hn] at h3
    omega
  have hd : Function.minimalPeriod (lfsr n poly) v ∣ 2 ^ n - 1 := Function.IsPeriodicPt.minimalPeriod_dvd hN
  by_contra hne
  have hNpos : 0 < 2 ^ n - 1 := by
    have : 2 ^ 1 ≤ 2 ^ n := Nat.pow_le_pow_right (by omega) h1
    omega
  obtain ⟨m, hm⟩ := hd
  have hm1 : m ≠ 1 := by intro h; rw [h, Nat.mul_one] at hm; exact hne hm.symm
  obtain ⟨p, hpp, hpm⟩ := Nat.exists_prime_and_dvd hm1
  have hpN : p ∣ (c.factors.map Prod.fst).prod := by rw [c5, hm]; exact Dvd.dvd.mul_left hpm _
  obtain ⟨q', hq', hpq⟩ := (Prime.dvd_prod_iff hpp.prime).1 hpN
  obtain ⟨q, hq, rfl⟩ := List.mem_map.1 hq'
  have hpe : p = q.1 := (Nat.prime_dvd_prime_iff_eq hpp (hp q hq)).1 hpq
  refine hno q hq ?_
  obtain ⟨r, hr⟩ := hpm
  have : (2 ^ n - 1) / q.1 = Function.minimalPeriod (lfsr n poly) v * r := by
    rw [hm, hr, ← hpe]
    rw [show Function.minimalPeriod (lfsr n poly) v * (p * r) = p * (Function.minimalPeriod (lfsr n poly) v * r) by ring, Nat.mul_div_cancel_left _ hpp.pos]
  rw [this]
  exact (Function.isPeriodicPt_minimalPeriod (lfsr n poly) v).mul_const r

/-- Certificates for the polynomials: the characteristic polynomial, and for each prime factor `p` of `2^n - 1`, with multiplicity, the inverse of
`x^((2^n - 1) / p) - 1` modulo that polynomial. -/
def certs : List Cert := [
  ⟨0x3, []⟩,
  ⟨0x7, [(3, 2)]⟩,
  ⟨0xb, [(7, 6)]⟩,
  ⟨0x13, [(3, 6), (5, 2)]⟩,
  ⟨0x25, [(31, 28)]⟩,
  ⟨0x43, [(3, 59), (3, 59), (7, 15)]⟩,
  ⟨0x89, [(127, 120)]⟩,
  ⟨0x11d, [(3, 214), (5, 152), (17, 138)]⟩,
  ⟨0x211, [(7, 28), (73, 488)]⟩,
  ⟨0x409, [(3, 237), (11, 654), (31, 855)]⟩,
  ⟨0x805, [(23, 524), (89, 405)]⟩,
  ⟨0x1053, [(3, 70), (3, 70), (5, 1971), (7, 1799), (13, 1177)]⟩,
  ⟨0x201b, [(8191, 8182)]⟩,
  ⟨0x4443, [(3, 10151), (43, 12301), (127, 3409)]⟩,
  ⟨0x8003, [(7, 5454), (31, 317), (151, 25749)]⟩,
  ⟨0x1100b, [(3, 350), (5, 26), (17, 6085), (257, 23989)]⟩,
  ⟨0x20009, [(131071, 131064)]⟩,
  ⟨0x40081, [(3, 114587), (3, 114587), (3, 114587), (7, 103563), (19, 191151), (73, 37678)]⟩,
  ⟨0x80063, [(524287, 524254)]⟩,
  ⟨0x100009, [(3, 810475), (5, 544808), (5, 544808), (11, 97118), (31, 324094), (41, 21386)]⟩,
  ⟨0x200005, [(7, 640052), (7, 640052), (127, 421748), (337, 2073285)]⟩,
  ⟨0x400003, [(3, 2166039), (23, 1818062), (89, 398559), (683, 2680320)]⟩,
  ⟨0x800021, [(47, 1643064), (178481, 1803671)]⟩,
  ⟨0x1000087, [(3, 2692809), (3, 2692809), (5, 10624803), (7, 11721696), (13, 1065558), (17, 4290592), (241, 9370668)]⟩,
  ⟨0x2000009, [(31, 21551047), (601, 9501800), (1801, 31740228)]⟩,
  ⟨0x7100001, [(3, 22960722), (2731, 21058221), (8191, 49736167)]⟩,
  ⟨0xe400001, [(7, 60892125), (73, 18637814), (262657, 73030652)]⟩,
  ⟨0x10000009, [(3, 201413087), (5, 135300520), (29, 99118671), (43, 220580552), (113, 4290707), (127, 152044070)]⟩,
  ⟨0x20000005, [(233, 166316410), (1103, 185447446), (2089, 317348523)]⟩,
  ⟨0x65000001, [(3, 565571346), (3, 565571346), (7, 416592261), (11, 557259746), (31, 654693600), (151, 477138815), (331, 518058660)]⟩,
  ⟨0x80000009, [(2147483647, 2147483640)]⟩
]

theorem certs_ok : (List.range 31).all (fun i => (certs.getD i ⟨0, []⟩).ok (i + 1) (mlsPoly.getD i 0)) = true := by decide +kernel

/-! ## Primality of the factors -/

/-- No number in `[a, a + 2^k)` divides `m`. -/
def noDiv (m : Nat) : Nat → Nat → Bool
  | 0, a => !(m % a == 0)
  | k + 1, a => noDiv m k a && noDiv m k (a + 2 ^ k)

theorem noDiv_spec (m : Nat) (k : Nat) : ∀ a, noDiv m k a = true → ∀ d, a ≤ d → d < a + 2 ^ k → ¬ d ∣ m := by
  induction k with
  | zero =>
    intro a h d h1 h2 hd
    rw [show d = a by simpa using (show d < a + 1 by simpa using h2) |> fun h => (by omega : d = a)] at hd
    have := Nat.mod_eq_zero_of_dvd hd
    simp [noDiv, this] at h
  | succ k ih =>
    intro a h d h1 h2
    rw [noDiv, Bool.and_eq_true] at h
    rcases Nat.lt_or_ge d (a + 2 ^ k) with h' | h'
    · exact ih a h.1 d h1 h'
    · exact ih _ h.2 d h' (by rw [Nat.pow_succ] at h2; omega)

theorem prime_of_noDiv {m k : Nat} (h2 : 2 ≤ m) (h : noDiv m k 2 = true) (hk : m < (2 + 2 ^ k) * (2 + 2 ^ k)) : m.Prime := by
  rw [Nat.prime_def_le_sqrt]
  refine ⟨h2, fun d hd hs => noDiv_spec m k 2 h d hd ?_⟩
  have : Nat.sqrt m < 2 + 2 ^ k := Nat.sqrt_lt.2 hk
  omega

theorem prime_mersenne31 : Nat.Prime 2147483647 := prime_of_noDiv (k := 16) (by omega) (by decide +kernel) (by decide +kernel)

/-- The primes dividing some `2^n - 1`. -/
def certPrimes : List Nat := [3, 5, 7, 11, 13, 17, 19, 23, 29, 31, 41, 43, 47, 73, 89, 113, 127, 151, 233, 241, 257, 331, 337, 601, 683, 1103, 1801, 2089, 2731,
  8191, 131071, 178481, 262657, 524287, 2147483647]

theorem certPrimes_prime : ∀ p ∈ certPrimes, p.Prime := by
  simp only [certPrimes, List.forall_mem_cons, List.not_mem_nil, false_imp_iff, implies_true, and_true]
  refine ⟨?_, ?_, ?_, ?_, ?_, ?_, ?_, ?_, ?_, ?_, ?_, ?_, ?_, ?_, ?_, ?_, ?_, ?_, ?_, ?_, ?_, ?_, ?_, ?_, ?_, ?_, ?_, ?_, ?_, ?_, ?_, ?_, ?_, ?_, prime_mersenne31⟩ <;>
    norm_num

theorem certs_mem : (List.range 31).all (fun i => (certs.getD i ⟨0, []⟩).factors.all (fun q => certPrimes.contains q.1)) = true := by decide +kernel

theorem certs_prime (i : Nat) (hi : i < 31) (q : Nat × Nat) (hq : q ∈ (certs.getD i ⟨0, []⟩).factors) : q.1.Prime := by
  have := List.all_eq_true.1 (List.all_eq_true.1 certs_mem i (List.mem_range.2 hi)) q hq
  exact certPrimes_prime q.1 (by simpa using this)

/-- The step for each size has full period on every nonzero state. -/
theorem lfsr_period {n : Nat} (h1 : 1 ≤ n) (hn : n ≤ 31) {v : Nat} (h0 : 0 < v) (hv : v < 2 ^ n) :
    Function.minimalPeriod (lfsr n (mlsPoly.getD (n - 1) 0)) v = 2 ^ n - 1 := by
  have := List.all_eq_true.1 certs_ok (n - 1) (List.mem_range.2 (by omega))
  rw [show n - 1 + 1 = n by omega] at this
  exact Cert.period (by omega) h1 _ this (certs_prime (n - 1) (by omega)) h0 hv

end Fundsp.Noise
