import Verif.Resynth.Model
import Verif.Core.ResetProps
import Mathlib.RingTheory.RootsOfUnity.Complex

/-!
# Frequency domain resynthesis: property C61
-/

noncomputable section
namespace Fundsp.Rsy

variable {P : Type} {i o : Nat}

/-! ## Fourier transforms -/

theorem cis_add (x y : ℝ) : cis (x + y) = cis x * cis y := by
  unfold cis
  rw [← Complex.exp_add]; congr 1; push_cast; ring

theorem cis_nat (n : Nat) : cis n = 1 := by
  unfold cis
  rw [show ((2 * Real.pi * (n : ℝ) : ℝ) : ℂ) * Complex.I = n * (2 * Real.pi * Complex.I) by push_cast; ring]
  exact Complex.exp_nat_mul_two_pi_mul_I n

theorem cis_conj (x : ℝ) : (starRingEnd ℂ) (cis x) = cis (-x) := by
  unfold cis
  rw [← Complex.exp_conj, map_mul, Complex.conj_I, Complex.conj_ofReal]
  congr 1
  push_cast; ring

theorem cis_pow (x : ℝ) (k : Nat) : cis x ^ k = cis (k * x) := by
  unfold cis
  rw [← Complex.exp_nat_mul]; congr 1; push_cast; ring

theorem cis_root (N : Nat) : cis (1 / N) = Complex.exp (2 * Real.pi * Complex.I / N) := by
  unfold cis
  congr 1; push_cast; ring

/-- Orthogonality. -/
theorem sum_cis (N : Nat) (hN : 0 < N) (n m : Nat) (hn : n < N) (hm : m < N) :
    ∑ k ∈ Finset.range N, cis (-((k : ℝ) * m / N)) * cis ((k : ℝ) * n / N) = if n = m then (N : ℂ) else 0 := by
  have hNr : (N : ℝ) ≠ 0 := by positivity
  have key : ∀ d : Nat, 0 < d → d < N → ∑ k ∈ Finset.range N, cis ((k : ℝ) * d / N) = 0 := by
    intro d h0 hd
    have hz : cis ((d : ℝ) / N) ≠ 1 := by
      have := (Complex.isPrimitiveRoot_exp N (by omega)).pow_ne_one_of_pos_of_lt (by omega) hd
      rw [← cis_root, cis_pow] at this
      rwa [show (d : ℝ) / N = d * (1 / N) by ring]
    have hg := mul_neg_geom_sum (cis ((d : ℝ) / N)) N
    rw [cis_pow, show (N : ℝ) * (d / N) = (d : ℕ) by field_simp, cis_nat, sub_self] at hg
    have : ∑ k ∈ Finset.range N, cis ((k : ℝ) * d / N) = ∑ k ∈ Finset.range N, cis ((d : ℝ) / N) ^ k := by
      refine Finset.sum_congr rfl (fun k _ => ?_)
      rw [cis_pow]; congr 1; ring
    rw [this]
    rcases mul_eq_zero.1 hg with h | h
    · exact absurd (sub_eq_zero.1 h).symm hz
    · exact h
  by_cases h : n = m
  · subst h
    rw [if_pos rfl, Finset.sum_congr rfl (g := fun _ => (1 : ℂ))]
    · simp
    · intro k _
      rw [← cis_add, neg_add_cancel, show (0 : ℝ) = (0 : Nat) by norm_num, cis_nat]
  · rw [if_neg h]
    rcases Nat.lt_or_ge m n with c | c
    · rw [← key (n - m) (by omega) (by omega)]
      refine Finset.sum_congr rfl (fun k _ => ?_)
      rw [← cis_add, Nat.cast_sub c.le]; congr 1; ring
    · rw [← key (N - (m - n)) (by omega) (by omega)]
      refine Finset.sum_congr rfl (fun k _ => ?_)
      rw [Nat.cast_sub (by omega), Nat.cast_sub c, show (k : ℝ) * ((N : ℝ) - (m - n)) / N = (k : ℕ) + (-((k : ℝ) * m / N) + k * n / N) by field_simp; ring,
        cis_add (k : ℕ), cis_nat, one_mul, cis_add]

theorem idft_dft (N : Nat) (hN : 0 < N) (x : Nat → ℝ) (n : Nat) (hn : n < N) : idft N (dft N x) n = x n := by
  unfold idft dft
  have hNc : (N : ℂ) ≠ 0 := by exact_mod_cast hN.ne'
  rw [div_eq_iff hNc]
  have : ∀ k, (∑ m ∈ Finset.range N, (x m : ℂ) * cis (-((k : ℝ) * m / N))) * cis ((k : ℝ) * n / N)
      = ∑ m ∈ Finset.range N, (x m : ℂ) * (cis (-((k : ℝ) * m / N)) * cis ((k : ℝ) * n / N)) := fun k => by
    rw [Finset.sum_mul]; exact Finset.sum_congr rfl (fun m _ => by ring)
  simp only [this]
  rw [Finset.sum_comm]
  simp only [← Finset.mul_sum]
  rw [Finset.sum_eq_single n]
  · rw [sum_cis N hN n n hn hn, if_pos rfl]
  · intro m hm hne
    rw [sum_cis N hN n m hn (Finset.mem_range.1 hm), if_neg (fun c => hne c.symm), mul_zero]
  · intro h; exact absurd (Finset.mem_range.2 hn) h

theorem dft_neg (N : Nat) (hN : 0 < N) (x : Nat → ℝ) (k : Nat) (hk : k ≤ N) : dft N x (N - k) = (starRingEnd ℂ) (dft N x k) := by
  have hNr : (N : ℝ) ≠ 0 := by positivity
  unfold dft
  rw [map_sum]
  refine Finset.sum_congr rfl (fun n _ => ?_)
  rw [map_mul, cis_conj, Complex.conj_ofReal, Nat.cast_sub hk]
  congr 1
  have e : cis (-(-((k : ℝ) * n / N))) = cis ((n : Nat)) * cis (-(((N : ℝ) - k) * n / N)) := by
    rw [← cis_add]; congr 1; field_simp; ring
  rw [e, cis_nat, one_mul]

theorem dft_real (N : Nat) (hN : 0 < N) (x : Nat → ℝ) (k : Nat) (hk : N - k = k ∨ k = 0) (hk' : k ≤ N) : (dft N x k).im = 0 := by
  rcases hk with h | h
  · have := dft_neg N hN x k hk'
    rw [h] at this
    have := congrArg Complex.im this
    rw [Complex.conj_im] at this
    linarith
  · subst h
    unfold dft
    rw [Complex.im_sum]
    refine Finset.sum_eq_zero (fun n _ => ?_)
    rw [show -(((0 : Nat) : ℝ) * n / N) = ((0 : Nat) : ℝ) by norm_num, cis_nat, mul_one, Complex.ofReal_im]

/-- The bins seen by the processing function are those of the discrete Fourier transform. -/
theorem bins_dft (H : Nat) (hH : 0 < H) (x : Nat → ℝ) (k : Nat) (hk : k ≤ 4 * H / 2) :
    (⟨fixNyquist (4 * H) (realFft (4 * H) x) (k * 2), fixNyquist (4 * H) (realFft (4 * H) x) (k * 2 + 1)⟩ : ℂ) = dft (4 * H) x k := by
  have hre : fixNyquist (4 * H) (realFft (4 * H) x) (k * 2) = (dft (4 * H) x k).re := by
    unfold fixNyquist
    rw [if_neg (by omega), if_neg (by omega)]
    by_cases h : k * 2 = 4 * H
    · rw [if_pos h, show k = 4 * H / 2 by omega]
      unfold realFft
      rw [if_pos rfl]
    · rw [if_neg h]
      unfold realFft
      rw [if_neg (by omega), if_pos (by omega), if_pos (by omega), show k * 2 / 2 = k by omega]
  have him : fixNyquist (4 * H) (realFft (4 * H) x) (k * 2 + 1) = (dft (4 * H) x k).im := by
    unfold fixNyquist
    by_cases h0 : k = 0
    · subst h0
      rw [if_pos rfl, dft_real _ (by omega) x 0 (Or.inr rfl) (by omega)]
    · rw [if_neg (by omega)]
      by_cases h : k * 2 = 4 * H
      · rw [if_pos (by omega), dft_real _ (by omega) x k (Or.inl (by omega)) (by omega)]
      · rw [if_neg (by omega), if_neg (by omega)]
        unfold realFft
        rw [if_neg (by omega), if_pos (by omega), if_neg (by omega), show (k * 2 + 1) / 2 = k by omega]
  rw [hre, him]

/-! ## Specification -/

/-- The Hann window of length `4 H`. -/
def hannWindow (H n : Nat) : ℝ := Real.sin (Real.pi * n / (4 * H)) ^ 2

/-- Bin `k` of frame `m`: the transform of the `4 H` input samples from sample `m H` on, times the Hann window. -/
def spectrum (H : Nat) (w : Nat → Frame ℝ i) (m : Nat) (c : Fin i) (k : Nat) : ℂ :=
  if k ≤ 2 * H then dft (4 * H) (fun n => w (m * H + n) c * hannWindow H n) k else 0

/-- The state of the processing function before frame `m`. It is called once per frame, in order. -/
def procState (H : Nat) (f : Proc P i o) (w : Nat → Frame ℝ i) (p : P) : Nat → P
  | 0 => p
  | m + 1 => (f (procState H f w p m) (4 * H + m * H) (spectrum H w m)).1

/-- The output bins of frame `m`. -/
def outBins (H : Nat) (f : Proc P i o) (w : Nat → Frame ℝ i) (p : P) (m : Nat) : Fin o → Nat → ℂ := (f (procState H f w p m) (4 * H + m * H) (spectrum H w m)).2

/-- A full spectrum from its bins up to Nyquist, with the symmetry of real signals. -/
def hermitian (H : Nat) (a : Nat → ℂ) (k : Nat) : ℂ := if k ≤ 2 * H then a k else (starRingEnd ℂ) (a (4 * H - k))

/-- The real part of sample `n` of the output of frame `m`. -/
def frameOut (H : Nat) (f : Proc P i o) (w : Nat → Frame ℝ i) (p : P) (m : Nat) (c : Fin o) (n : Nat) : ℝ := (idft (4 * H) (hermitian H (outBins H f w p m c)) n).re

/-- The contribution of frame `m` to output sample `t`: from `4 H` samples after the start of its input on, windowed again. -/
def contribution (H : Nat) (f : Proc P i o) (w : Nat → Frame ℝ i) (p : P) (c : Fin o) (t m : Nat) : ℝ :=
  if m * H + 4 * H ≤ t ∧ t < m * H + 8 * H then 2 / 3 * (hannWindow H (t - (m * H + 4 * H)) * frameOut H f w p m c (t - (m * H + 4 * H))) else 0

theorem hann_eq (H : Nat) (hH : 0 < H) (n : Nat) : hann (4 * H) n = 1 / 2 - 1 / 2 * Real.cos (n * (Real.pi / 2) / H) := by
  unfold hann
  have hHr : (H : ℝ) ≠ 0 := by positivity
  rw [show 4 * H / 2 = 2 * H by omega]
  push_cast
  rw [show ((n : ℝ) - 2 * H) * (2 * Real.pi) / (4 * H) = n * (Real.pi / 2) / H - Real.pi by field_simp; ring, Real.cos_sub_pi]
  ring

theorem hann_window (H : Nat) (hH : 0 < H) (n : Nat) : hann (4 * H) n = hannWindow H n := by
  have hHr : (H : ℝ) ≠ 0 := by positivity
  rw [hann_eq H hH, show (n : ℝ) * (Real.pi / 2) / H = 2 * (Real.pi * n / (4 * H)) by field_simp; ring, Real.cos_two_mul]
  unfold hannWindow
  have := Real.sin_sq_add_cos_sq (Real.pi * n / (4 * H))
  linarith

/-! ## The invariant -/

theorem and_sub_one (m x : Nat) : x &&& (2 ^ m - 1) = x % 2 ^ m := Nat.and_two_pow_sub_one_eq_mod x m

/-- Number of frames processed before sample `t`. -/
def framesBefore (H t : Nat) : Nat := if t < 4 * H then 0 else (t - 4 * H) / H + 1

/-- Window `j` before sample `t`. -/
structure WinInv (H : Nat) (f : Proc P i o) (w : Nat → Frame ℝ i) (p : P) (j : Fin 4) (t : Nat) (v : Win i o) : Prop where
  samples : v.samples = t
  index : v.index = (j * H + t) % (4 * H)
  input : ∀ c n, n < v.index → v.index ≤ t + n → v.input c n = w (t + n - v.index) c * hann (4 * H) n
  output : ∀ c n, n < 4 * H → (v.output c n).re = if 4 * H + v.index ≤ t then frameOut H f w p ((t - v.index - 4 * H) / H) c n else 0

structure Inv (H : Nat) (f : Proc P i o) (w : Nat → Frame ℝ i) (p : P) (t : Nat) (s : St P i o) : Prop where
  samples : s.samples = t
  proc : s.proc = procState H f w p (framesBefore H t)
  window : ∀ j, WinInv H f w p j t (s.window j)

theorem fixNegative_idft (H : Nat) (hH : 0 < H) (a : Nat → ℂ) (n : Nat) : idft (4 * H) (fixNegative (4 * H) a) n = idft (4 * H) (hermitian H a) n := by
  unfold idft
  congr 1
  refine Finset.sum_congr rfl (fun k hk => ?_)
  rw [Finset.mem_range] at hk
  congr 1
  unfold fixNegative hermitian
  by_cases h : k ≤ 2 * H
  · rw [if_pos h, if_neg (by omega)]
  · rw [if_neg h, if_pos (by omega)]

theorem dft_congr (N : Nat) (x y : Nat → ℝ) (h : ∀ n, n < N → x n = y n) (k : Nat) : dft N x k = dft N y k :=
  Finset.sum_congr rfl (fun n hn => by rw [h n (Finset.mem_range.1 hn)])

/-- A window filled with input is turned into the output of its frame. -/
theorem runWin_spec (H : Nat) (hH : 0 < H) (f : Proc P i o) (w : Nat → Frame ℝ i) (p : P) (m : Nat) (v : Win i o) (hs : v.samples = 4 * H + m * H)
    (hin : ∀ c n, n < 4 * H → v.input c n = w (m * H + n) c * hann (4 * H) n) (q : P) (hq : q = procState H f w p m) :
    (runWin (4 * H) f q v).1 = procState H f w p (m + 1) ∧ (∀ c n, ((runWin (4 * H) f q v).2.output c n).re = frameOut H f w p m c n) ∧
      (runWin (4 * H) f q v).2.samples = v.samples ∧ (runWin (4 * H) f q v).2.index = v.index := by
  have hb : (fun c k => if k ≤ 4 * H / 2 then ({ v with input := fun c => fixNyquist (4 * H) (realFft (4 * H) (v.input c)) } : Win i o).at' c k else 0) = spectrum H w m := by
    funext c k
    unfold spectrum
    by_cases hk : k ≤ 2 * H
    · rw [if_pos hk, if_pos (by omega)]
      unfold Win.at'
      simp only
      rw [bins_dft H hH (v.input c) k (by omega)]
      exact dft_congr _ _ _ (fun n hn => by rw [hin c n hn, hann_window H hH]) k
    · rw [if_neg hk, if_neg (by omega)]
  have he : f q v.samples (fun c k => if k ≤ 4 * H / 2 then ({ v with input := fun c => fixNyquist (4 * H) (realFft (4 * H) (v.input c)) } : Win i o).at' c k else 0)
      = f (procState H f w p m) (4 * H + m * H) (spectrum H w m) := by rw [hb, hs, hq]
  refine ⟨congrArg Prod.fst he, fun c n => ?_, rfl, rfl⟩
  show (idft (4 * H) (fixNegative (4 * H) ((f q v.samples _).2 c)) n).re = _
  rw [he, fixNegative_idft H hH]
  rfl

theorem runAll_other (N : Nat) (f : Proc P i o) (s : St P i o) (h : ∀ j, (s.window j).isFftTime N = false) : runAll N f s = s := by
  unfold runAll
  have : ∀ l : List (Fin 4), l.foldl (fun s j => if (s.window j).isFftTime N then
      (let r := runWin N f s.proc (s.window j); { s with window := Function.update s.window j r.2, proc := r.1 }) else s) s = s := by
    intro l
    induction l with
    | nil => rfl
    | cons j l ih =>
      rw [List.foldl_cons, h j]
      exact ih
  exact this _

/-- When exactly one window is due, running all runs that one. -/
theorem runAll_one (N : Nat) (f : Proc P i o) (s : St P i o) (j : Fin 4) (hj : (s.window j).isFftTime N = true) (h : ∀ k, k ≠ j → (s.window k).isFftTime N = false) :
    runAll N f s = { s with window := Function.update s.window j (runWin N f s.proc (s.window j)).2, proc := (runWin N f s.proc (s.window j)).1 } := by
  have pre : ∀ (l : List (Fin 4)), j ∉ l → ∀ t : St P i o, (∀ k, k ≠ j → t.window k = s.window k) → l.foldl (fun s j => if (s.window j).isFftTime N then
      (let r := runWin N f s.proc (s.window j); { s with window := Function.update s.window j r.2, proc := r.1 }) else s) t = t := by
    intro l
    induction l with
    | nil => intro _ t _; rfl
    | cons k l ih =>
      intro hk t ht
      rw [List.mem_cons, not_or] at hk
      have hkj : k ≠ j := fun c => hk.1 c.symm
      rw [List.foldl_cons, ht k hkj, h k hkj]
      exact ih hk.2 t ht
  obtain ⟨l1, l2, hl, h1, h2⟩ : ∃ l1 l2, List.finRange 4 = l1 ++ j :: l2 ∧ j ∉ l1 ∧ j ∉ l2 := by
    fin_cases j
    · exact ⟨[], [1, 2, 3], rfl, by decide, by decide⟩
    · exact ⟨[0], [2, 3], rfl, by decide, by decide⟩
    · exact ⟨[0, 1], [3], rfl, by decide, by decide⟩
    · exact ⟨[0, 1, 2], [], rfl, by decide, by decide⟩
  unfold runAll
  rw [hl, List.foldl_append, pre l1 h1 s (fun _ _ => rfl), List.foldl_cons, hj]
  simp only [if_true]
  exact pre l2 h2 _ (fun k hk => Function.update_of_ne hk _ _)

theorem fft_due (H : Nat) (hH : 0 < H) (j : Fin 4) (t : Nat) (v : Win i o) (hs : v.samples = t) (hi : v.index = (j * H + t) % (4 * H)) :
    v.isFftTime (4 * H) = true ↔ 4 * H ≤ t ∧ (j * H + t) % (4 * H) = 0 := by
  unfold Win.isFftTime
  rw [hs, hi]
  simp only [Bool.and_eq_true, beq_iff_eq, decide_eq_true_eq]
  exact and_comm

theorem decomp (H t : Nat) (hH : 0 < H) (j : Fin 4) : (j * H + t) % (4 * H) = ((j + t / H) % 4) * H + t % H := by
  have h1 : (j : Nat) * H + t = (j + t / H) * H + t % H := by
    have := Nat.div_add_mod t H
    rw [Nat.add_mul, Nat.mul_comm (t / H) H]; omega
  have hr := Nat.mod_lt t hH
  rw [h1, Nat.mul_comm 4 H, Nat.mod_mul, Nat.mul_comm _ H]
  rw [show (H * (↑j + t / H) + t % H) % H = t % H by rw [Nat.mul_add_mod, Nat.mod_mod]]
  rw [show (H * (↑j + t / H) + t % H) / H = ↑j + t / H by rw [Nat.mul_add_div hH, Nat.div_eq_of_lt hr, Nat.add_zero]]
  rw [Nat.mul_comm H]; omega

theorem inv_step (H : Nat) (hp2 : ∃ m, H = 2 ^ m) (f : Proc P i o) (w : Nat → Frame ℝ i) (p : P) (t : Nat) (s : St P i o) (hs : Inv H f w p t s) :
    Inv H f w p (t + 1) (tick (4 * H) f s (w t)).1 := by
  obtain ⟨e, he⟩ := hp2
  have hH : 0 < H := by rw [he]; exact Nat.two_pow_pos e
  have h4 : 4 * H = 2 ^ (e + 2) := by rw [he, Nat.pow_add]; ring
  -- the windows after writing and advancing
  have hadv : ∀ j, (((s.window j).write (w t) (hann (4 * H) (s.window j).index)).advance (4 * H)).samples = t + 1 ∧
      (((s.window j).write (w t) (hann (4 * H) (s.window j).index)).advance (4 * H)).index = (j * H + (t + 1)) % (4 * H) := by
    intro j
    have h := hs.window j
    refine ⟨by show (s.window j).samples + 1 = t + 1; rw [h.samples], ?_⟩
    show ((s.window j).index + 1) &&& (4 * H - 1) = _
    rw [h4, and_sub_one, h.index, h4, ← h4]
    rw [Nat.mod_add_mod]; congr 1
  have hlt : ∀ j, (s.window j).index < 4 * H := fun j => by rw [(hs.window j).index]; exact Nat.mod_lt _ (by omega)
  have hnext : ∀ j : Fin 4, (j * H + (t + 1)) % (4 * H) = if (s.window j).index + 1 = 4 * H then 0 else (s.window j).index + 1 := by
    intro j
    rw [(hs.window j).index, show (j : Nat) * H + (t + 1) = j * H + t + 1 by omega, ← Nat.mod_add_mod]
    have := Nat.mod_lt ((j : Nat) * H + t) (show 0 < 4 * H by omega)
    split
    · rename_i hh; rw [hh, Nat.mod_self]
    · exact Nat.mod_eq_of_lt (by omega)
  have hinput : ∀ j c n, n ≤ (s.window j).index → (s.window j).index ≤ t + n →
      (((s.window j).write (w t) (hann (4 * H) (s.window j).index)).advance (4 * H)).input c n = w (t + n - (s.window j).index) c * hann (4 * H) n := by
    intro j c n hn hn'
    show (if n = (s.window j).index then _ else _) = _
    by_cases hh : n = (s.window j).index
    · rw [if_pos hh, ← hh, Nat.add_sub_cancel]
    · rw [if_neg hh]
      exact (hs.window j).input c n (by omega) hn'
  -- a window that is not due satisfies the invariant
  have hkeep : ∀ j : Fin 4, ¬ (4 * H ≤ t + 1 ∧ (j * H + (t + 1)) % (4 * H) = 0) →
      WinInv H f w p j (t + 1) (((s.window j).write (w t) (hann (4 * H) (s.window j).index)).advance (4 * H)) := by
    intro j hj
    refine ⟨(hadv j).1, (hadv j).2, ?_, ?_⟩
    · intro c n hn hn'
      rw [(hadv j).2, hnext] at hn hn' ⊢
      by_cases hh : (s.window j).index + 1 = 4 * H
      · rw [if_pos hh] at hn; omega
      · rw [if_neg hh] at hn hn' ⊢
        rw [hinput j c n (by omega) (by omega)]
        congr 2; omega
    · intro c n hn
      have ho := (hs.window j).output c n hn
      have hl := hlt j
      rw [(hadv j).2, hnext]
      show ((s.window j).output c n).re = _
      rw [ho]
      by_cases hh : (s.window j).index + 1 = 4 * H
      · rw [hnext, if_pos hh] at hj
        rw [if_pos hh, if_neg (by omega), if_neg (by omega)]
      · rw [if_neg hh]
        by_cases hg : 4 * H + (s.window j).index ≤ t
        · rw [if_pos hg, if_pos (by omega)]
          congr 2; omega
        · rw [if_neg hg, if_neg (by omega)]
  have hdue := fun j => fft_due (i := i) (o := o) H hH j (t + 1) _ (hadv j).1 (hadv j).2
  have hmask : (t + 1) &&& (4 * H / 4 - 1) = (t + 1) % H := by rw [Nat.mul_div_cancel_left _ (by decide), he, and_sub_one]
  by_cases hfft : 4 * H ≤ t + 1 ∧ (t + 1) % H = 0
  · -- exactly one window is due
    obtain ⟨h1, h2⟩ := hfft
    obtain ⟨q, hq⟩ := Nat.dvd_of_mod_eq_zero h2
    have hdiv : (t + 1) / H = q := by rw [hq, Nat.mul_div_cancel_left _ hH]
    have hq4 : 4 ≤ q := by
      by_contra c
      have : H * q ≤ H * 3 := Nat.mul_le_mul_left _ (by omega)
      omega
    have hzero : ∀ j : Fin 4, (j * H + (t + 1)) % (4 * H) = 0 ↔ (j + q) % 4 = 0 := by
      intro j
      rw [decomp H (t + 1) hH, hdiv, h2, Nat.add_zero]
      constructor
      · intro hh; rcases Nat.mul_eq_zero.1 hh with hh | hh
        · exact hh
        · omega
      · intro hh; rw [hh, Nat.zero_mul]
    obtain ⟨j, hj⟩ : ∃ j : Fin 4, ((j : Nat) + q) % 4 = 0 := ⟨⟨(4 - q % 4) % 4, Nat.mod_lt _ (by decide)⟩, by show ((4 - q % 4) % 4 + q) % 4 = 0; omega⟩
    have hother : ∀ k : Fin 4, k ≠ j → ¬ ((k : Nat) + q) % 4 = 0 := by
      intro k hk hh
      exact hk (Fin.ext (by omega))
    have hji : (s.window j).index + 1 = 4 * H := by
      have := (hzero j).2 hj
      rw [hnext] at this
      by_contra c
      rw [if_neg c] at this; omega
    obtain ⟨m, hm⟩ : ∃ m, q = m + 4 := ⟨q - 4, by omega⟩
    have ht1 : t + 1 = 4 * H + m * H := by rw [hq, hm]; ring
    have hfr : framesBefore H t = m := by
      unfold framesBefore
      split
      · rename_i hh
        have : m * H = 0 := by omega
        rcases Nat.mul_eq_zero.1 this with h | h <;> omega
      · rename_i hh
        have hm1 : 1 ≤ m := by
          by_contra c
          have : m = 0 := by omega
          subst this; omega
        obtain ⟨m', rfl⟩ : ∃ m', m = m' + 1 := ⟨m - 1, by omega⟩
        have : t - 4 * H = m' * H + (H - 1) := by rw [Nat.add_mul] at ht1; omega
        rw [this, Nat.mul_comm, Nat.mul_add_div hH, Nat.div_eq_of_lt (by omega)]
    have hfr' : framesBefore H (t + 1) = m + 1 := by
      unfold framesBefore
      rw [if_neg (by omega), ht1, Nat.add_sub_cancel_left, Nat.mul_div_cancel _ hH]
    obtain ⟨r1, r2, r3, r4⟩ := runWin_spec H hH f w p m (((s.window j).write (w t) (hann (4 * H) (s.window j).index)).advance (4 * H)) (by rw [(hadv j).1, ht1])
      (fun c n hn => by rw [hinput j c n (by omega) (by omega)]; congr 2; omega) s.proc (by rw [hs.proc, hfr])
    have hrun := runAll_one (4 * H) f ({ s with window := fun j => ((s.window j).write (w t) (hann (4 * H) (s.window j).index)).advance (4 * H), samples := s.samples + 1 } : St P i o) j
      ((hdue j).2 ⟨h1, (hzero j).2 hj⟩) (fun k hk => by
        rw [Bool.eq_false_iff]
        intro c
        exact hother k hk ((hzero k).1 ((hdue k).1 c).2))
    have htick : (tick (4 * H) f s (w t)).1 = runAll (4 * H) f ({ s with window := fun j => ((s.window j).write (w t) (hann (4 * H) (s.window j).index)).advance (4 * H), samples := s.samples + 1 } : St P i o) := by
      unfold tick
      simp only
      rw [if_pos (by rw [hs.samples, hmask]; exact h2)]
    rw [htick, hrun]
    refine ⟨by show s.samples + 1 = t + 1; rw [hs.samples], ?_, ?_⟩
    · rw [hfr']; exact r1
    · intro k
      by_cases hk : k = j
      · subst hk
        simp only [Function.update_self]
        refine ⟨by rw [r3, (hadv k).1], by rw [r4, (hadv k).2], ?_, ?_⟩
        · intro c n hn
          rw [r4, (hadv k).2, (hzero k).2 hj] at hn
          omega
        · intro c n hn
          rw [r2, r4, (hadv k).2, (hzero k).2 hj, if_pos (by omega)]
          congr 1
          rw [ht1, Nat.sub_zero, Nat.add_sub_cancel_left, Nat.mul_div_cancel _ hH]
      · simp only [Function.update_of_ne hk]
        exact hkeep k (fun c => hother k hk ((hzero k).1 c.2))
  · -- none is due
    have hno : ∀ j : Fin 4, ¬ (4 * H ≤ t + 1 ∧ (j * H + (t + 1)) % (4 * H) = 0) := by
      rintro j ⟨a, b⟩
      rw [decomp H (t + 1) hH] at b
      exact hfft ⟨a, by omega⟩
    have hfr : framesBefore H (t + 1) = framesBefore H t := by
      unfold framesBefore
      by_cases ha : t + 1 < 4 * H
      · rw [if_pos ha, if_pos (by omega)]
      · have hb : ¬ (t + 1) % H = 0 := fun c => hfft ⟨by omega, c⟩
        have hc : ¬ t < 4 * H := by
          intro c
          have : t + 1 = H * 4 := by omega
          rw [this, Nat.mul_mod_right] at hb
          exact hb rfl
        rw [if_neg ha, if_neg hc, show t + 1 - 4 * H = t - 4 * H + 1 by omega, Nat.succ_div, if_neg]
        intro c
        apply hb
        rw [show t + 1 = t - 4 * H + 1 + H * 4 by omega, Nat.add_mul_mod_self_left]
        exact Nat.mod_eq_zero_of_dvd c
    have htick : (tick (4 * H) f s (w t)).1 = { s with window := fun j => ((s.window j).write (w t) (hann (4 * H) (s.window j).index)).advance (4 * H), samples := s.samples + 1 } := by
      unfold tick
      simp only
      split
      · exact runAll_other _ _ _ (fun j => by
          rw [Bool.eq_false_iff]
          intro c
          exact hno j ((hdue j).1 c))
      · rfl
    rw [htick]
    exact ⟨by show s.samples + 1 = t + 1; rw [hs.samples], by rw [hfr]; exact hs.proc, fun j => hkeep j (hno j)⟩

/-- The states of the windows at the start. -/
def fresh (H : Nat) (p : P) : St P i o := ⟨fun j => Win.new (j * H), 0, p⟩

theorem new_eq (H : Nat) (p : P) : (new (4 * H) p : St P i o) = fresh H p := by
  unfold new fresh
  congr 1
  funext j
  congr 1
  fin_cases j
  · show 0 = 0 * H; omega
  · show 4 * H / 4 = 1 * H; omega
  · show 4 * H / 2 = 2 * H; omega
  · show 4 * H / 2 + 4 * H / 4 = 3 * H; omega

theorem reset_eq (H : Nat) (s : St P i o) : reset (4 * H) s = fresh H s.proc := by
  unfold reset fresh
  rw [Nat.mul_div_cancel_left _ (by decide)]
  rfl

theorem inv_st (H : Nat) (hp2 : ∃ m, H = 2 ^ m) (f : Proc P i o) (w : Nat → Frame ℝ i) (p : P) (t : Nat) :
    Inv H f w p t ((resynth (4 * H) f).ticks.st (fresh H p : St P i o) w t) := by
  have hH : 0 < H := by obtain ⟨e, he⟩ := hp2; rw [he]; exact Nat.two_pow_pos e
  induction t with
  | zero =>
    refine ⟨rfl, ?_, fun j => ⟨rfl, ?_, ?_, ?_⟩⟩
    · show p = _
      unfold framesBefore
      rw [if_pos (by omega)]; rfl
    · show (j : Nat) * H = _
      rw [Nat.add_zero, Nat.mod_eq_of_lt]
      exact Nat.mul_lt_mul_of_pos_right j.2 hH
    · intro c n hn hn'
      omega
    · intro c n hn
      show ((0 : ℂ)).re = _
      rw [if_neg (by omega)]; rfl
  | succ t ih => exact inv_step H hp2 f w p t _ ih

theorem sum_shift (g : Nat → ℝ) (q : Nat) : ∑ j : Fin 4, (if 4 + ((j : Nat) + q) % 4 ≤ q then g (q - ((j + q) % 4) - 4) else 0)
    = ∑ m ∈ Finset.range (q + 1), if m + 4 ≤ q ∧ q < m + 8 then g m else 0 := by
  have h1 : ∑ j : Fin 4, (if 4 + ((j : Nat) + q) % 4 ≤ q then g (q - ((j + q) % 4) - 4) else 0)
      = ∑ j ∈ Finset.range 4, if 4 + j ≤ q then g (q - j - 4) else 0 := by
    refine Finset.sum_bij' (fun j _ => ((j : Nat) + q) % 4) (fun k hk => ⟨(k + 4 - q % 4) % 4, Nat.mod_lt _ (by decide)⟩) ?_ ?_ ?_ ?_ ?_
    · intro j _; exact Finset.mem_range.2 (Nat.mod_lt _ (by decide))
    · intro k _; exact Finset.mem_univ _
    · intro j _; apply Fin.ext; show (((j : Nat) + q) % 4 + 4 - q % 4) % 4 = j; have := j.2; omega
    · intro k hk; have := Finset.mem_range.1 hk; show ((k + 4 - q % 4) % 4 + q) % 4 = k; omega
    · intro j _; rfl
  rw [h1, ← Finset.sum_filter, ← Finset.sum_filter]
  refine Finset.sum_bij' (fun j _ => q - j - 4) (fun m _ => q - m - 4) ?_ ?_ ?_ ?_ ?_
  · intro j hj; rw [Finset.mem_filter, Finset.mem_range] at hj ⊢; omega
  · intro m hm; rw [Finset.mem_filter, Finset.mem_range] at hm ⊢; omega
  · intro j hj; rw [Finset.mem_filter, Finset.mem_range] at hj; show q - (q - j - 4) - 4 = j; omega
  · intro m hm; rw [Finset.mem_filter, Finset.mem_range] at hm; show q - (q - m - 4) - 4 = m; omega
  · intro j _; rfl

/-- C61. Whatever the processing function, the output of a new resynthesizer of window length `4 H`, with `H` a power of two, is the sum of the windowed outputs of the frames. Frame `m` takes
the `4 H` input samples from `m H` on, under a Hann window; the processing function is called once per frame, in order, with the frame's spectrum; its output bins
are transformed back as a real signal, windowed again, scaled by two thirds, and heard `4 H` samples after the frame's input. -/
theorem C61_output (H : Nat) (hp2 : ∃ e, H = 2 ^ e) (f : Proc P i o) (w : Nat → Frame ℝ i) (p : P) (t : Nat) (c : Fin o) :
    (resynth (4 * H) f).stream (new (4 * H) p : St P i o) w t c = ∑ m ∈ Finset.range (t / H + 1), contribution H f w p c t m := by
  have hH : 0 < H := by obtain ⟨e, he⟩ := hp2; rw [he]; exact Nat.two_pow_pos e
  have hinv := inv_st H hp2 f w p t
  rw [new_eq]
  show (tick (4 * H) f _ (w t)).2 c = _
  generalize ((resynth (4 * H) f).ticks.st (fresh H p : St P i o) w t) = s at hinv
  change Inv H f w p t (s : St P i o) at hinv
  have hd := Nat.div_add_mod t H
  have hr := Nat.mod_lt t hH
  show ∑ j : Fin 4, ((s.window j).output c (s.window j).index).re * (hann (4 * H) (s.window j).index * (2 / 3)) = _
  have e1 : ∀ j : Fin 4, ((s.window j).output c (s.window j).index).re * (hann (4 * H) (s.window j).index * (2 / 3))
      = if 4 + ((j : Nat) + t / H) % 4 ≤ t / H then contribution H f w p c t (t / H - (j + t / H) % 4 - 4) else 0 := by
    intro j
    have hw := hinv.window j
    have hidx := hw.index
    rw [decomp H t hH] at hidx
    have hj4 := Nat.mod_lt ((j : Nat) + t / H) (show 0 < 4 by decide)
    generalize ((j : Nat) + t / H) % 4 = a at hidx hj4
    have hle : a * H ≤ 3 * H := Nat.mul_le_mul_right _ (by omega)
    rw [hw.output c _ (by omega), hidx]
    by_cases hq : 4 + a ≤ t / H
    · obtain ⟨m, hm⟩ : ∃ m, t / H = m + 4 + a := ⟨t / H - 4 - a, by omega⟩
      have ht : t = m * H + 4 * H + (a * H + t % H) := by
        conv_lhs => rw [← hd, hm]
        ring
      rw [if_pos (by omega), if_pos hq, hm, show m + 4 + a - a - 4 = m by omega]
      unfold contribution
      rw [if_pos (by omega), show t - (m * H + 4 * H) = a * H + t % H by omega, show (t - (a * H + t % H) - 4 * H) / H = m by
        rw [show t - (a * H + t % H) - 4 * H = m * H by omega, Nat.mul_div_cancel _ hH], hann_window H hH]
      ring
    · rw [if_neg hq, if_neg, zero_mul]
      have : H * (t / H) ≤ H * (3 + a) := Nat.mul_le_mul_left _ (by omega)
      have e : H * (3 + a) = 3 * H + a * H := by ring
      omega
  rw [Finset.sum_congr rfl (fun j _ => e1 j), sum_shift (fun m => contribution H f w p c t m)]
  refine Finset.sum_congr rfl (fun m _ => ?_)
  split
  · rfl
  · rename_i hm
    unfold contribution
    rw [if_neg]
    rintro ⟨a, b⟩
    apply hm
    constructor
    · rw [Nat.le_div_iff_mul_le hH, Nat.add_mul]; exact a
    · rw [Nat.div_lt_iff_lt_mul hH, Nat.add_mul]; exact b

/-! ## Perfect reconstruction -/

/-- The squares of four Hann windows a quarter apart sum to three halves. -/
theorem hann_sum (H : Nat) (hH : 0 < H) (r : Nat) : hann (4 * H) r ^ 2 + hann (4 * H) (r + H) ^ 2 + hann (4 * H) (r + 2 * H) ^ 2 + hann (4 * H) (r + 3 * H) ^ 2 = 3 / 2 := by
  have hHr : (H : ℝ) ≠ 0 := by positivity
  rw [hann_eq H hH, hann_eq H hH, hann_eq H hH, hann_eq H hH]
  push_cast
  rw [show ((r : ℝ) + H) * (Real.pi / 2) / H = r * (Real.pi / 2) / H + Real.pi / 2 by field_simp,
    show ((r : ℝ) + 2 * H) * (Real.pi / 2) / H = r * (Real.pi / 2) / H + Real.pi by field_simp,
    show ((r : ℝ) + 3 * H) * (Real.pi / 2) / H = (r * (Real.pi / 2) / H + Real.pi / 2) + Real.pi by field_simp; ring,
    Real.cos_add_pi, Real.cos_add_pi, Real.cos_add_pi_div_two]
  have := Real.sin_sq_add_cos_sq ((r : ℝ) * (Real.pi / 2) / H)
  nlinarith

/-- Processing that copies input channel `a` to output channel `b`, like `forward(a, b)`. -/
def Forwards (H : Nat) (f : Proc P i o) (a : Fin i) (b : Fin o) : Prop := ∀ p n x k, k ≤ 2 * H → (f p n x).2 b k = x a k

theorem frameOut_forward (H : Nat) (hH : 0 < H) (f : Proc P i o) (a : Fin i) (b : Fin o) (hf : Forwards H f a b) (w : Nat → Frame ℝ i) (p : P) (m n : Nat) (hn : n < 4 * H) :
    frameOut H f w p m b n = w (m * H + n) a * hannWindow H n := by
  unfold frameOut
  have : idft (4 * H) (hermitian H (outBins H f w p m b)) n = idft (4 * H) (dft (4 * H) (fun n => w (m * H + n) a * hannWindow H n)) n := by
    unfold idft
    congr 1
    refine Finset.sum_congr rfl (fun k hk => ?_)
    rw [Finset.mem_range] at hk
    congr 1
    unfold hermitian outBins
    by_cases h : k ≤ 2 * H
    · rw [if_pos h, hf _ _ _ _ h]
      unfold spectrum
      rw [if_pos h]
    · rw [if_neg h, hf _ _ _ _ (by omega)]
      unfold spectrum
      rw [if_pos (by omega), ← dft_neg (4 * H) (by omega) _ _ (by omega), show 4 * H - (4 * H - k) = k by omega]
  rw [this, idft_dft (4 * H) (by omega) _ n hn, Complex.ofReal_re]

/-- C61. If an output is a copy of an input, then the input is reconstructed exactly, delayed by one window length, once all windows overlap. This is from sample `7 H` on,
a quarter window earlier than documented. Other outputs, and the state of the processing function, are arbitrary. -/
theorem C61_identity (H : Nat) (hp2 : ∃ e, H = 2 ^ e) (f : Proc P i o) (a : Fin i) (b : Fin o) (hf : Forwards H f a b) (w : Nat → Frame ℝ i) (p : P) (t : Nat) (ht : 7 * H ≤ t) :
    (resynth (4 * H) f).stream (new (4 * H) p : St P i o) w t b = w (t - 4 * H) a := by
  have hH : 0 < H := by obtain ⟨e, he⟩ := hp2; rw [he]; exact Nat.two_pow_pos e
  rw [C61_output H hp2]
  have hd := Nat.div_add_mod t H
  have hr := Nat.mod_lt t hH
  obtain ⟨m, hm⟩ : ∃ m, t / H = m + 7 := ⟨t / H - 7, by have : 7 ≤ t / H := (Nat.le_div_iff_mul_le hH).2 ht; omega⟩
  rw [hm] at hd ⊢
  have hc : ∀ k : Nat, contribution H f w p b t k = if m ≤ k ∧ k < m + 4 then 2 / 3 * (hannWindow H (t % H + (m + 3 - k) * H) ^ 2 * w (t - 4 * H) a) else 0 := by
    intro k
    unfold contribution
    by_cases hk : m ≤ k ∧ k < m + 4
    · obtain ⟨d, hd'⟩ : ∃ d, m + 3 = k + d := ⟨m + 3 - k, by omega⟩
      have ht' : t = k * H + 4 * H + (t % H + d * H) := by
        conv_lhs => rw [← hd, show m + 7 = k + d + 4 by omega]
        ring
      have hdH : d * H ≤ 3 * H := Nat.mul_le_mul_right _ (by omega)
      rw [if_pos (by omega), if_pos hk, show m + 3 - k = d by omega, show t - (k * H + 4 * H) = t % H + d * H by omega,
        frameOut_forward H hH f a b hf w p k _ (by omega), show k * H + (t % H + d * H) = t - 4 * H by omega]
      ring
    · rw [if_neg hk, if_neg]
      rintro ⟨c1, c2⟩
      apply hk
      have c1' : (k + 4) * H ≤ t := by rw [Nat.add_mul]; exact c1
      have c2' : t < (k + 8) * H := by rw [Nat.add_mul]; exact c2
      have := (Nat.le_div_iff_mul_le hH).2 c1'
      have := (Nat.div_lt_iff_lt_mul hH).2 c2'
      omega
  rw [Finset.sum_congr rfl (fun k _ => hc k), ← Finset.sum_filter, show (Finset.range (m + 7 + 1)).filter (fun k => m ≤ k ∧ k < m + 4) = {m, m + 1, m + 2, m + 3} by
    ext k
    simp only [Finset.mem_filter, Finset.mem_range, Finset.mem_insert, Finset.mem_singleton]
    omega]
  rw [Finset.sum_insert (by simp), Finset.sum_insert (by simp), Finset.sum_insert (by simp), Finset.sum_singleton]
  rw [show m + 3 - m = 3 by omega, show m + 3 - (m + 1) = 2 by omega, show m + 3 - (m + 2) = 1 by omega, show m + 3 - (m + 3) = 0 by omega, Nat.zero_mul, Nat.add_zero, Nat.one_mul]
  have := hann_sum H hH (t % H)
  simp only [hann_window H hH] at this
  linear_combination (2 / 3 * w (t - 4 * H) a) * this

/-- C61. Nothing is heard before the first window is complete. -/
theorem C61_silence (H : Nat) (hp2 : ∃ e, H = 2 ^ e) (f : Proc P i o) (w : Nat → Frame ℝ i) (p : P) (t : Nat) (ht : t < 4 * H) (c : Fin o) :
    (resynth (4 * H) f).stream (new (4 * H) p : St P i o) w t c = 0 := by
  rw [C61_output H hp2]
  refine Finset.sum_eq_zero (fun m _ => ?_)
  unfold contribution
  rw [if_neg (by omega)]

/-- C61. After a reset the resynthesizer behaves like a new one with the present state of the processing function, which is not reset. -/
theorem C61_reset (H : Nat) (f : Proc P i o) (s : St P i o) (w : Nat → Frame ℝ i) :
    (resynth (4 * H) f).stream ((resynth (4 * H) f).reset s) w = (resynth (4 * H) f).stream (new (4 * H) s.proc : St P i o) w := by
  rw [new_eq]
  exact congrArg (fun s => (resynth (4 * H) f).stream s w) (reset_eq H s)

/-- C61. With a processing function without state, resetting starts over. -/
theorem C61_reset_fresh (H : Nat) (f : Proc Unit i o) : ResetFresh (resynth (4 * H) f) (new (4 * H) () : St Unit i o) := by
  refine TickFresh.ofTick ?_
  intro s _ w
  exact C61_reset H f s w

/-- Copying the only channel, as with `resynth::<U1, U1, _>(4, |fft| fft.forward(0, 0))`: input sample 5 is heard at sample 9. -/
example (w : Nat → Frame ℝ 1) : (resynth (4 * 1) (fun (p : Unit) _ (x : Fin 1 → Nat → ℂ) => (p, x))).stream (new (4 * 1) () : St Unit 1 1) w 9 0 = w 5 0 :=
  C61_identity 1 ⟨0, rfl⟩ (fun (p : Unit) _ (x : Fin 1 → Nat → ℂ) => (p, x)) 0 0 (fun _ _ _ _ _ => rfl) w () 9 (by omega)

end Fundsp.Rsy
