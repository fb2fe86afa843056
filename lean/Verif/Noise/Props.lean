import Verif.Noise.Model
import Verif.Noise.MlsLemmas
import Mathlib.Data.Real.Basic
import Mathlib.Tactic.Linarith
import Mathlib.Tactic.FieldSimp
import Mathlib.Data.Fintype.Card
import Mathlib.Algebra.BigOperators.Group.Finset.Basic
import Mathlib.Algebra.BigOperators.Ring.Finset

/-! # Noise generators: properties C49 and C50 -/

namespace Fundsp.Noise

/-! ## C49: maximum length sequences -/

/-- A nonzero state of an order the constructors accept. -/
def MlsState.Nonzero (m : MlsState) : Prop := 1 ≤ m.n ∧ m.n ≤ 31 ∧ 0 < m.s ∧ m.s < 2 ^ m.n

theorem next_eq (m : MlsState) : m.next = ⟨m.n, lfsr m.n (mlsPoly.getD (m.n - 1) 0) m.s⟩ := rfl

theorem iter_next (m : MlsState) (k : Nat) : MlsState.next^[k] m = ⟨m.n, (lfsr m.n (mlsPoly.getD (m.n - 1) 0))^[k] m.s⟩ := by
  induction k with
  | zero => rfl
  | succ k ih => rw [Function.iterate_succ_apply', ih, next_eq, Function.iterate_succ_apply']

theorem iter_pos {n poly : Nat} (v : Nat) (h0 : 0 < v) {N : Nat} (hm : Function.minimalPeriod (lfsr n poly) v = N) (hN : 0 < N) (hn : n ≤ 32) (k : Nat) :
    0 < (lfsr n poly)^[k] v := by
  rcases Nat.eq_zero_or_pos ((lfsr n poly)^[k] v) with h | h
  · exfalso
    have hper : (lfsr n poly)^[N * (k + 1)] v = v := by
      have : Function.IsPeriodicPt (lfsr n poly) N v := hm ▸ Function.isPeriodicPt_minimalPeriod _ v
      exact this.mul_const (k + 1)
    have : N * (k + 1) = (N * (k + 1) - k) + k := by
      have : k + 1 ≤ N * (k + 1) := Nat.le_mul_of_pos_left _ hN
      omega
    rw [this, Function.iterate_add_apply, h, iter_zero hn] at hper
    omega
  · exact h

theorem two_pow_pred {n : Nat} (h : 1 ≤ n) : 0 < 2 ^ n - 1 := by
  have : 2 ^ 1 ≤ 2 ^ n := Nat.pow_le_pow_right (by omega) h
  omega

/-- The states met in a period are all the nonzero ones, each once. -/
theorem orbit_bij {n : Nat} (h1 : 1 ≤ n) (hn : n ≤ 31) {v : Nat} (h0 : 0 < v) (hv : v < 2 ^ n) :
    Set.InjOn (fun k => (lfsr n (mlsPoly.getD (n - 1) 0))^[k] v) (Finset.range (2 ^ n - 1)) ∧
    (Finset.range (2 ^ n - 1)).image (fun k => (lfsr n (mlsPoly.getD (n - 1) 0))^[k] v) = Finset.Ioo 0 (2 ^ n) := by
  have hm := lfsr_period h1 hn h0 hv
  have hinj : Set.InjOn (fun k => (lfsr n (mlsPoly.getD (n - 1) 0))^[k] v) (Finset.range (2 ^ n - 1)) := by
    intro a ha b hb hab
    have h := Function.iterate_injOn_Iio_minimalPeriod (f := lfsr n (mlsPoly.getD (n - 1) 0)) (x := v)
    rw [hm] at h
    exact h (by simpa using ha) (by simpa using hb) hab
  refine ⟨hinj, Finset.eq_of_subset_of_card_le ?_ ?_⟩
  · intro t ht
    obtain ⟨k, -, rfl⟩ := Finset.mem_image.1 ht
    exact Finset.mem_Ioo.2 ⟨iter_pos v h0 hm (two_pow_pred h1) (by omega) k, iter_lt _ hv k⟩
  · rw [Finset.card_image_of_injOn hinj, Finset.card_range, Nat.card_Ioo]
    omega

/-- **C49.** From any nonzero state, every nonzero state of the same order is visited exactly once in the next `2^n - 1` steps. -/
theorem C49_full_period (m : MlsState) (hm : m.Nonzero) (t : Nat) (h0 : 0 < t) (ht : t < 2 ^ m.n) :
    ∃! k, k < 2 ^ m.n - 1 ∧ MlsState.next^[k] m = ⟨m.n, t⟩ := by
  obtain ⟨h1, h2, h3, h4⟩ := hm
  obtain ⟨hi, hs⟩ := orbit_bij h1 h2 h3 h4
  have : t ∈ Finset.Ioo 0 (2 ^ m.n) := Finset.mem_Ioo.2 ⟨h0, ht⟩
  rw [← hs] at this
  obtain ⟨k, hk, hkt⟩ := Finset.mem_image.1 this
  refine ⟨k, ⟨Finset.mem_range.1 hk, by rw [iter_next]; exact congrArg _ hkt⟩, ?_⟩
  rintro k' ⟨hk', e⟩
  rw [iter_next] at e
  have e' := (MlsState.mk.inj e).2
  exact hi (by simpa using hk') hk (e'.trans hkt.symm)

/-- **C49, closed.** The zero state is never reached, and the state always fits in `n` bits. -/
theorem C49_never_zero (m : MlsState) (hm : m.Nonzero) (k : Nat) : (MlsState.next^[k] m).Nonzero ∧ (MlsState.next^[k] m).n = m.n := by
  obtain ⟨h1, h2, h3, h4⟩ := hm
  rw [iter_next]
  exact ⟨⟨h1, h2, iter_pos _ h3 (lfsr_period h1 h2 h3 h4) (two_pow_pred h1) (by omega) k, iter_lt _ h4 k⟩, rfl⟩

/-- **C49, period.** The sequence repeats after `length` steps, and not earlier. -/
theorem C49_period (m : MlsState) (hm : m.Nonzero) : m.length = 2 ^ m.n - 1 ∧ MlsState.next^[m.length] m = m ∧
    ∀ k, 0 < k → k < m.length → MlsState.next^[k] m ≠ m := by
  obtain ⟨h1, h2, h3, h4⟩ := hm
  have hl : m.length = 2 ^ m.n - 1 := by unfold MlsState.length; rw [Nat.one_shiftLeft]
  have hp := lfsr_period h1 h2 h3 h4
  refine ⟨hl, ?_, ?_⟩
  · rw [hl, iter_next, ← hp, Function.iterate_minimalPeriod]
  · intro k h0 hk e
    rw [iter_next] at e
    have e' : Function.IsPeriodicPt (lfsr m.n (mlsPoly.getD (m.n - 1) 0)) k m.s := congrArg MlsState.s e
    have := e'.minimalPeriod_le h0
    omega

/-- **C49, constructors.** Both constructors accept exactly the orders 1 to 31, and give nonzero states, whatever the seed. -/
theorem C49_new (n seed : Nat) :
    ((MlsState.new n).isSome ↔ 1 ≤ n ∧ n ≤ 31) ∧ ((MlsState.newWithSeed n seed).isSome ↔ 1 ≤ n ∧ n ≤ 31) ∧
    (∀ m, MlsState.new n = some m → m.n = n ∧ m.Nonzero) ∧ (∀ m, MlsState.newWithSeed n seed = some m → m.n = n ∧ m.Nonzero) := by
  refine ⟨?_, ?_, ?_, ?_⟩
  · unfold MlsState.new; split <;> simp_all
  · unfold MlsState.newWithSeed; split <;> simp_all
  · intro m h
    unfold MlsState.new at h
    split at h
    · rename_i hn
      cases h
      have := two_pow_pred hn.1
      exact ⟨rfl, hn.1, hn.2, by show 0 < (1 <<< n) - 1; rw [Nat.one_shiftLeft]; exact this, by show (1 <<< n) - 1 < 2 ^ n; rw [Nat.one_shiftLeft]; omega⟩
    · cases h
  · intro m h
    unfold MlsState.newWithSeed at h
    split at h
    · rename_i hn
      cases h
      have := two_pow_pred hn.1
      refine ⟨rfl, hn.1, hn.2, Nat.lt_of_lt_of_le Nat.zero_lt_one (Nat.le_add_right _ _), ?_⟩
      show 1 + seed % ((1 <<< n) - 1) < 2 ^ n
      rw [Nat.one_shiftLeft]
      have := Nat.mod_lt seed this
      omega
    · cases h

/-- **C49, seeds.** Every nonzero state is the start for some seed. -/
theorem C49_seed_onto (n t : Nat) (h1 : 1 ≤ n) (h2 : n ≤ 31) (h0 : 0 < t) (ht : t < 2 ^ n) :
    ∃ seed, seed < 2 ^ 32 ∧ MlsState.newWithSeed n seed = some ⟨n, t⟩ := by
  have h31 : 2 ^ n ≤ 2 ^ 31 := Nat.pow_le_pow_right (by omega) h2
  refine ⟨t - 1, by omega, ?_⟩
  unfold MlsState.newWithSeed
  rw [if_pos ⟨h1, h2⟩, Nat.one_shiftLeft, Nat.mod_eq_of_lt (by omega), show 1 + (t - 1) = t by omega]

/-- The sample value `2 * value - 1`, as an integer. -/
def MlsState.sign (m : MlsState) : Int := 2 * (m.value : Int) - 1

theorem value_bit (m : MlsState) : m.value = (m.s.testBit (m.n - 1)).toNat := by
  rw [MlsState.value, Nat.and_one_is_mod, Nat.shiftRight_eq_div_pow]
  exact (Nat.toNat_testBit _ _).symm

theorem sum_sign (n : Nat) (h1 : 1 ≤ n) : ∑ t ∈ Finset.Ioo 0 (2 ^ n), (⟨n, t⟩ : MlsState).sign = 1 := by
  obtain ⟨k, rfl⟩ : ∃ k, n = k + 1 := ⟨n - 1, by omega⟩
  have hk := Nat.two_pow_pos k
  have e : Finset.Ioo 0 (2 ^ (k + 1)) = Finset.Ico 1 (2 ^ k) ∪ Finset.Ico (2 ^ k) (2 ^ k + 2 ^ k) := by
    ext t; simp only [Finset.mem_Ioo, Finset.mem_union, Finset.mem_Ico, Nat.pow_succ]; omega
  have hd : Disjoint (Finset.Ico 1 (2 ^ k)) (Finset.Ico (2 ^ k) (2 ^ k + 2 ^ k)) := by
    rw [Finset.disjoint_left]; intro t; simp only [Finset.mem_Ico]; omega
  have hlow : ∀ t ∈ Finset.Ico 1 (2 ^ k), (⟨k + 1, t⟩ : MlsState).sign = -1 := by
    intro t ht
    rw [Finset.mem_Ico] at ht
    unfold MlsState.sign
    rw [value_bit]
    show 2 * ((t.testBit k).toNat : Int) - 1 = -1
    rw [Nat.testBit_eq_false_of_lt ht.2]; rfl
  have hhigh : ∀ t ∈ Finset.Ico (2 ^ k) (2 ^ k + 2 ^ k), (⟨k + 1, t⟩ : MlsState).sign = 1 := by
    intro t ht
    rw [Finset.mem_Ico] at ht
    unfold MlsState.sign
    rw [value_bit]
    show 2 * ((t.testBit k).toNat : Int) - 1 = 1
    rw [Nat.testBit_eq_decide_div_mod_eq, show t / 2 ^ k = 1 from Nat.div_eq_of_lt_le (by omega) (by omega)]; rfl
  rw [e, Finset.sum_union hd, Finset.sum_congr rfl hlow, Finset.sum_congr rfl hhigh]
  simp only [Finset.sum_const, Nat.card_Ico, nsmul_eq_mul]
  rw [Nat.cast_sub hk]
  push_cast
  rw [show (2 : Nat) ^ k + 2 ^ k - 2 ^ k = 2 ^ k by omega]
  push_cast
  ring

theorem sum_orbit {n : Nat} (h1 : 1 ≤ n) (hn : n ≤ 31) {v : Nat} (h0 : 0 < v) (hv : v < 2 ^ n) :
    ∑ k ∈ Finset.range (2 ^ n - 1), (⟨n, (lfsr n (mlsPoly.getD (n - 1) 0))^[k] v⟩ : MlsState).sign = 1 := by
  obtain ⟨hi, hs⟩ := orbit_bij h1 hn h0 hv
  rw [← sum_sign n h1, ← hs, Finset.sum_image (fun a ha b hb h => hi ha hb h)]

/-- **C49, balance.** Over a period the samples sum to 1: there is one more 1 than there are -1. -/
theorem C49_balance (m : MlsState) (hm : m.Nonzero) : ∑ k ∈ Finset.range m.length, (MlsState.next^[k] m).sign = 1 := by
  obtain ⟨h1, h2, h3, h4⟩ := hm
  have hl : m.length = 2 ^ m.n - 1 := by unfold MlsState.length; rw [Nat.one_shiftLeft]
  rw [hl, ← sum_orbit h1 h2 h3 h4]
  exact Finset.sum_congr rfl (fun k _ => by rw [iter_next])

theorem sign_mul (n a b : Nat) : (⟨n, a⟩ : MlsState).sign * (⟨n, b⟩ : MlsState).sign = - (⟨n, a ^^^ b⟩ : MlsState).sign := by
  unfold MlsState.sign
  rw [value_bit, value_bit, value_bit]
  show (2 * ((a.testBit (n - 1)).toNat : Int) - 1) * (2 * ((b.testBit (n - 1)).toNat : Int) - 1) = -(2 * (((a ^^^ b).testBit (n - 1)).toNat : Int) - 1)
  rw [Nat.testBit_xor]
  cases a.testBit (n - 1) <;> cases b.testBit (n - 1) <;> rfl

/-- **C49, flat spectrum.** The periodic autocorrelation of the samples is -1 at every lag that is not a multiple of the period, the property that gives
maximum length sequences their flat power spectrum. -/
theorem C49_autocorrelation (m : MlsState) (hm : m.Nonzero) (lag : Nat) (h0 : 0 < lag) (hlag : lag < m.length) :
    ∑ k ∈ Finset.range m.length, (MlsState.next^[k] m).sign * (MlsState.next^[k + lag] m).sign = -1 := by
  have hne := (C49_period m hm).2.2 lag h0 hlag
  obtain ⟨h1, h2, h3, h4⟩ := hm
  have hl : m.length = 2 ^ m.n - 1 := by unfold MlsState.length; rw [Nat.one_shiftLeft]
  rw [iter_next] at hne
  have hx : 0 < m.s ^^^ (lfsr m.n (mlsPoly.getD (m.n - 1) 0))^[lag] m.s := by
    rcases Nat.eq_zero_or_pos (m.s ^^^ (lfsr m.n (mlsPoly.getD (m.n - 1) 0))^[lag] m.s) with h | h
    · rw [Nat.xor_eq_zero_iff] at h
      exact absurd (by rw [← h]) hne
    · exact h
  have hlt : m.s ^^^ (lfsr m.n (mlsPoly.getD (m.n - 1) 0))^[lag] m.s < 2 ^ m.n := Nat.xor_lt_two_pow h4 (iter_lt _ h4 lag)
  have := sum_orbit h1 h2 hx hlt
  rw [hl, ← this, ← Finset.sum_neg_distrib]
  refine Finset.sum_congr rfl (fun k _ => ?_)
  rw [iter_next, iter_next, sign_mul, iter_xor (by omega), Function.iterate_add_apply]

/-- **C49, shifts.** The sequences of two seeds are shifts of one another. -/
theorem C49_shift (a b : MlsState) (ha : a.Nonzero) (hb : b.Nonzero) (hn : a.n = b.n) :
    ∃ d, d < 2 ^ a.n - 1 ∧ ∀ k, (MlsState.next^[k] b).value = (MlsState.next^[k + d] a).value := by
  obtain ⟨d, ⟨hd, he⟩, -⟩ := C49_full_period a ha b.s hb.2.2.1 (hn ▸ hb.2.2.2)
  refine ⟨d, hd, fun k => ?_⟩
  rw [Function.iterate_add_apply, he, hn]

/-- Sample arithmetic in the reals, standing in for `f32`. Every integer and product that occurs here is small enough to be exact in the `f32` of the code, but
for the multiplication by `NOISE_Z`. -/
noncomputable def realNoise : NoiseArith ℝ := ⟨fun x => (x : ℝ), (· * ·), (· - ·), 1, 2, 2 / (2 ^ 24 - 1)⟩

/-- **C49, node.** The node outputs the successive signs, so each sample is -1 or 1, in blocks or ticks. -/
theorem C49_node (s : MlsSt) (w : Nat → Frame ℝ 0) (k : Nat) :
    (mls realNoise).ticks.out s w k 0 = ((MlsState.next^[k] s.mls).sign : ℝ) ∧
    ((mls realNoise).ticks.out s w k 0 = 1 ∨ (mls realNoise).ticks.out s w k 0 = -1) ∧ TickBlock (mls realNoise) := by
  have hst : ∀ k, ((mls realNoise).ticks.st s w k : MlsSt).mls = MlsState.next^[k] s.mls := by
    intro k
    induction k with
    | zero => rfl
    | succ k ih =>
      show ((mls realNoise).ticks.st s w k : MlsSt).mls.next = _
      rw [ih, Function.iterate_succ_apply']
  have ho : (mls realNoise).ticks.out s w k 0 = ((MlsState.next^[k] s.mls).value : ℝ) * 2 - 1 := by
    rw [← hst k]; rfl
  have hs : (mls realNoise).ticks.out s w k 0 = ((MlsState.next^[k] s.mls).sign : ℝ) := by
    rw [ho]; unfold MlsState.sign; push_cast; ring
  refine ⟨hs, ?_, tickBlock_ofTick _ _⟩
  rw [ho, value_bit]
  cases (MlsState.next^[k] s.mls).s.testBit ((MlsState.next^[k] s.mls).n - 1)
  · right; simp
  · left; simp; norm_num

/-- **C49, reset.** Reset puts the generator in a nonzero state of the same order, which depends only on the order and the seed. -/
theorem C49_reset (s t : MlsSt) (h1 : 1 ≤ s.mls.n) (h2 : s.mls.n ≤ 31) (hn : s.mls.n = t.mls.n) (hseed : s.seed.getD s.hash = t.seed.getD t.hash) :
    s.reset.mls.Nonzero ∧ s.reset.mls.n = s.mls.n ∧ s.reset.mls = t.reset.mls := by
  have hsome := (C49_new s.mls.n (fold64 (s.seed.getD s.hash)).toNat).2.1.2 ⟨h1, h2⟩
  obtain ⟨m, hm⟩ := Option.isSome_iff_exists.1 hsome
  have := (C49_new s.mls.n (fold64 (s.seed.getD s.hash)).toNat).2.2.2 m hm
  have e : s.reset.mls = m := by unfold MlsSt.reset; rw [hm]; rfl
  have e' : t.reset.mls = m := by unfold MlsSt.reset; rw [← hn, ← hseed, hm]; rfl
  rw [e, e']
  exact ⟨this.2, this.1, rfl⟩

/-- The 31-bit generator used by `mls()`-style nodes. -/
example : (⟨31, 12345⟩ : MlsState).Nonzero := ⟨by norm_num, by norm_num, by norm_num, by norm_num⟩
example : (List.range 7).map (fun k => (MlsState.next^[k] ⟨3, 7⟩).s) = [7, 6, 4, 1, 2, 5, 3] := by decide

/-! ## C50: white noise -/

/-- Sample `k` after a reset, as a function of the seed and the position alone. -/
def noiseSpec {α : Type} (A : NoiseArith α) (seed : BitVec 64) (k : Nat) : α := sample A (fold64 seed + BitVec.ofNat 32 (k + 1))

theorem noise_st {α : Type} (A : NoiseArith α) (s : NoiseSt) (w : Nat → Frame α 0) (k : Nat) :
    (noise A).ticks.st s w k = ({ s with state := s.state + BitVec.ofNat 32 k } : NoiseSt) := by
  induction k with
  | zero =>
    have : s.state + BitVec.ofNat 32 0 = s.state := by simp
    rw [this]; rfl
  | succ k ih =>
    show ((noise A).tick ((noise A).ticks.st s w k) (w k)).1 = _
    rw [ih]
    show NoiseSt.mk _ _ _ = NoiseSt.mk _ _ _
    congr 1
    show s.state + BitVec.ofNat 32 k + 1 = s.state + BitVec.ofNat 32 (k + 1)
    rw [BitVec.add_assoc]
    congr 1
    rw [BitVec.ofNat_add]; rfl

theorem noise_out {α : Type} (A : NoiseArith α) (s : NoiseSt) (w : Nat → Frame α 0) (k : Nat) :
    (noise A).ticks.out s w k = fun _ => sample A (s.state + BitVec.ofNat 32 (k + 1)) := by
  show ((noise A).tick ((noise A).ticks.st s w k) (w k)).2 = _
  rw [noise_st]
  funext _
  show sample A (s.state + BitVec.ofNat 32 k + 1) = _
  rw [BitVec.add_assoc, BitVec.ofNat_add]; rfl

theorem noise_lanes {α : Type} (A : NoiseArith α) (inp : Buf α 0) (x : BitVec 32) : ∀ n j (d : Nat) (out : Buf α 1), ∀ k,
    (itemLoop (fun (lanes : Nat → BitVec 32) _ => (fun k => lanes k + 8, fun k _ => sample A (lanes k))) inp j n
      (fun k => x + BitVec.ofNat 32 (d + k + 1)) out).2 0 k =
      if 8 * j ≤ k ∧ k < 8 * j + 8 * n then sample A (x + BitVec.ofNat 32 (d + (k - 8 * j) + 1)) else out 0 k := by
  intro n
  induction n with
  | zero => intro j d out k; rw [if_neg (by omega)]; rfl
  | succ n ih =>
    intro j d out k
    rw [itemLoop]
    have e : (fun k => x + BitVec.ofNat 32 (d + k + 1) + 8) = fun k => x + BitVec.ofNat 32 (d + 8 + k + 1) := by
      funext k
      rw [BitVec.add_assoc, show d + 8 + k + 1 = d + k + 1 + 8 by omega, BitVec.ofNat_add (d + k + 1) 8]; rfl
    simp only [e]
    rw [ih (j + 1) (d + 8)]
    by_cases h1 : 8 * (j + 1) ≤ k ∧ k < 8 * (j + 1) + 8 * n
    · rw [if_pos h1, if_pos (by omega), show d + 8 + (k - 8 * (j + 1)) + 1 = d + (k - 8 * j) + 1 by omega]
    · rw [if_neg h1]
      by_cases h2 : 8 * j ≤ k ∧ k < 8 * j + 8
      · rw [if_pos h2, if_pos (by omega)]
      · rw [if_neg h2, if_neg (by omega)]

/-- A block is exactly as many ticks, in samples and in the state left behind. -/
theorem C50_exact {α : Type} (A : NoiseArith α) : ExactProcess (noise A) (fun _ => True) := by
  intro g s size inp out _ _
  refine ⟨(noise_st A s inp.frame size).symm, fun k hk => ?_⟩
  refine Eq.trans ?_ (noise_out A s inp.frame k).symm
  funext c
  have : c = 0 := Subsingleton.elim _ _
  subst this
  have hs : size ≤ 8 * simdItems size := by unfold simdItems; omega
  have := noise_lanes A inp s.state (simdItems size) 0 0 out k
  simp only [Nat.zero_add, Nat.mul_zero, Nat.sub_zero] at this
  refine this.trans ?_
  rw [if_pos ⟨by omega, by omega⟩]

/-- **C50, blocks.** Every partition of the signal into blocks and ticks gives the same samples. -/
theorem C50_block_equals_tick {α : Type} (A : NoiseArith α) : BlockEqualsTick (noise A) ∧ BlockEqualsTick (mls A) :=
  ⟨blockEqualsTick_of_exact (C50_exact A), (tickBlock_iff _).1 (tickBlock_ofTick _ _)⟩

/-- **C50, seeds.** After a reset, or after the hash is set, sample `k` is determined by the seed and `k` alone. -/
theorem C50_seed {α : Type} (A : NoiseArith α) (s : NoiseSt) (w : Nat → Frame α 0) (k : Nat) :
    (noise A).ticks.out s.reset w k 0 = noiseSpec A (s.seed.getD s.hash) k ∧
    (∀ seed, (noise A).ticks.out (s.setSeed seed).reset w k 0 = noiseSpec A seed k) ∧
    (∀ hash, (noise A).ticks.out (s.setHash hash) w k 0 = noiseSpec A (s.seed.getD hash) k) := by
  refine ⟨?_, fun seed => ?_, fun hash => ?_⟩ <;> rw [noise_out] <;> rfl

/-- **C50, agreement.** Two generators with the same seed agree forever after a reset, whatever they did before and whatever resets, blocks and ticks follow. -/
theorem C50_same_seed {α : Type} (A : NoiseArith α) (s t : NoiseSt) (hs : s.seed.getD s.hash = t.seed.getD t.hash) (w : Nat → Frame α 0) (cs : List (Call α 0 1)) :
    ((noise A).exec w (.reset :: cs) 0 s).2 = ((noise A).exec w (.reset :: cs) 0 t).2 := by
  have key : ∀ cs : List (Call α 0 1), ∀ (k : Nat) (s t : NoiseSt), s.seed.getD s.hash = t.seed.getD t.hash → s.state = t.state →
      ((noise A).exec w cs k s).2 = ((noise A).exec w cs k t).2 := by
    intro cs
    induction cs with
    | nil => intros; rfl
    | cons c cs ih =>
      intro k s t h1 h2
      cases c with
      | tick =>
        have e : ∀ x, ((noise A).tick s x).2 = ((noise A).tick t x).2 := fun x => congrArg (fun y => fun _ => sample A (y + 1)) h2
        have h3 := ih (k + 1) ((noise A).tick s (w k)).1 ((noise A).tick t (w k)).1 h1 (congrArg (fun x => x + 1) h2)
        simp only [Node.exec]
        rw [h3, e]
      | reset => exact ih k s.reset t.reset h1 (by show fold64 _ = fold64 _; rw [h1])
      | block size tail old g =>
        have e : ∀ s t : NoiseSt, s.state = t.state → ∀ inp, ((noise A).process g s size inp old).2 = ((noise A).process g t size inp old).2 := by
          intro s t h inp
          exact congrArg (fun x => noiseItems A x size inp old) h
        have h3 := ih (k + size) ((noise A).process g s size (blockInput w k size tail) old).1 ((noise A).process g t size (blockInput w k size tail) old).1 h1
          (congrArg (fun x => x + BitVec.ofNat 32 size) h2)
        simp only [Node.exec]
        rw [h3, e s t h2]
  exact key cs 0 s.reset t.reset hs (by show fold64 _ = fold64 _; rw [hs])

/-- **C50, range.** Every sample lies in `[-1, 1]`. -/
theorem C50_range (s : NoiseSt) (w : Nat → Frame ℝ 0) (k : Nat) :
    -1 ≤ (noise realNoise).ticks.out s w k 0 ∧ (noise realNoise).ticks.out s w k 0 ≤ 1 := by
  rw [noise_out]
  have key : ∀ x : BitVec 32, -1 ≤ sample realNoise x ∧ sample realNoise x ≤ 1 := by
    intro x
    have h : ((hash32x x) >>> 8).toNat ≤ 2 ^ 24 - 1 := by
      rw [BitVec.toNat_ushiftRight, Nat.shiftRight_eq_div_pow]
      have := (hash32x x).isLt
      omega
    have h' : (((hash32x x) >>> 8).toNat : ℝ) ≤ 2 ^ 24 - 1 := by
      have := (Nat.cast_le (α := ℝ)).2 h
      norm_num at this ⊢
      exact this
    have h0 : (0 : ℝ) ≤ (((hash32x x) >>> 8).toNat : ℝ) := Nat.cast_nonneg _
    show (-1 : ℝ) ≤ (((hash32x x) >>> 8).toNat : ℝ) * (2 / (2 ^ 24 - 1)) - 1 ∧ (((hash32x x) >>> 8).toNat : ℝ) * (2 / (2 ^ 24 - 1)) - 1 ≤ 1
    generalize (((hash32x x) >>> 8).toNat : ℝ) = y at *
    norm_num at h' ⊢
    constructor <;> linarith
  exact key _

/-- Inverse of `x ^ (x >> 16)`. -/
theorem xorshift_inv (x : BitVec 32) : (x ^^^ (x >>> 16)) ^^^ ((x ^^^ (x >>> 16)) >>> 16) = x := by
  rw [BitVec.ushiftRight_xor_distrib, ← BitVec.shiftRight_add, BitVec.xor_assoc, ← BitVec.xor_assoc (x >>> 16), BitVec.xor_self, BitVec.zero_xor]
  have : x >>> (16 + 16) = 0#32 := BitVec.ushiftRight_eq_zero (by omega)
  rw [this, BitVec.xor_zero]

/-- The hash is one-to-one on 32-bit words. -/
theorem hash32x_injective : Function.Injective hash32x := by
  have h1 : Function.Injective (fun x : BitVec 32 => x ^^^ (x >>> 16)) := fun a b h => by
    have := congrArg (fun y : BitVec 32 => y ^^^ (y >>> 16)) h
    simpa only [xorshift_inv] using this
  have h2 : Function.Injective (fun x : BitVec 32 => x * mulX) := fun a b h => by
    have := congrArg (fun y : BitVec 32 => y * 0x119de1f3#32) h
    simp only [BitVec.mul_assoc] at this
    rw [show mulX * 0x119de1f3#32 = 1#32 by decide] at this
    simpa using this
  exact fun a b h => h1 (h2 (h1 (h2 (h1 (h2 h)))))

/-- **C50, uniformity.** Over `2^32` samples, the period of the generator, each of the `2^24` sample levels is output equally often: the states giving level `v`
correspond to the 256 words with upper bits `v`. -/
theorem C50_uniform (v : Nat) (hv : v < 2 ^ 24) :
    ∃ f : Fin 256 → BitVec 32, Function.Injective f ∧ ∀ x : BitVec 32, ((hash32x x) >>> 8).toNat = v ↔ ∃ j, f j = x := by
  have : Finite (BitVec 32) := Finite.of_injective (fun x : BitVec 32 => x.toFin) (fun a b h => BitVec.eq_of_toFin_eq h)
  have hsurj : Function.Surjective hash32x := Finite.surjective_of_injective hash32x_injective
  choose inv hinv using hsurj
  have hlt : ∀ j : Fin 256, v * 256 + j.1 < 2 ^ 32 := fun j => by have := j.2; omega
  have hto : ∀ j : Fin 256, (BitVec.ofNat 32 (v * 256 + j.1)).toNat = v * 256 + j.1 := fun j => by
    rw [BitVec.toNat_ofNat, Nat.mod_eq_of_lt (hlt j)]
  refine ⟨fun j => inv (BitVec.ofNat 32 (v * 256 + j.1)), ?_, fun x => ⟨fun h => ?_, ?_⟩⟩
  · intro a b h
    have := congrArg hash32x h
    simp only [hinv] at this
    have := congrArg BitVec.toNat this
    rw [hto, hto] at this
    exact Fin.ext (by omega)
  · rw [BitVec.toNat_ushiftRight, Nat.shiftRight_eq_div_pow] at h
    refine ⟨⟨(hash32x x).toNat % 256, Nat.mod_lt _ (by omega)⟩, hash32x_injective ?_⟩
    rw [hinv]
    apply BitVec.eq_of_toNat_eq
    rw [hto]
    show v * 256 + (hash32x x).toNat % 256 = (hash32x x).toNat
    omega
  · rintro ⟨j, rfl⟩
    rw [hinv, BitVec.toNat_ushiftRight, hto, Nat.shiftRight_eq_div_pow]
    have := j.2
    omega

/-- **C50, period.** The state returns after `2^32` samples, and the samples repeat. -/
theorem C50_period {α : Type} (A : NoiseArith α) (s : NoiseSt) (w : Nat → Frame α 0) (k : Nat) :
    (noise A).ticks.out s w (k + 2 ^ 32) 0 = (noise A).ticks.out s w k 0 := by
  rw [noise_out, noise_out]
  have : BitVec.ofNat 32 (k + 2 ^ 32 + 1) = BitVec.ofNat 32 (k + 1) := by
    apply BitVec.eq_of_toNat_eq
    rw [BitVec.toNat_ofNat, BitVec.toNat_ofNat]
    omega
  simp only [this]

example : (NoiseSt.setSeed ⟨7, none, 3⟩ 5).seed.getD 3 = (NoiseSt.setSeed ⟨0, some 1, 9⟩ 5).seed.getD 9 := rfl
example : sample (⟨fun x => x, fun a _ => a, fun a _ => a, 0, 0, 0⟩ : NoiseArith Nat) 1 ≠ sample ⟨fun x => x, fun a _ => a, fun a _ => a, 0, 0, 0⟩ 2 := by decide

end Fundsp.Noise
