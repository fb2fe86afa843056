import Verif.Float.Avg
import Verif.Core.Props

/-! C96: averages in floating point. -/

noncomputable section
namespace Fundsp.Fl

/-- Averages over a power of two channels satisfy the requirement of the general theorems about graphs. -/
theorem flAvg_exact {p : ℕ} (hp : 1 ≤ p) (j : ℕ) : (flAvg p hp (2 ^ j)).Exact := by
  have e : ∀ x : ℝ, x / ((2 ^ j : ℕ) : ℝ) = x * 2 ^ (-(j : ℤ)) := by
    intro x; rw [zpow_neg, zpow_natCast, div_eq_mul_inv]; push_cast; rfl
  have ez : rnd p (1 / ((2 ^ j : ℕ) : ℝ)) = 2 ^ (-(j : ℤ)) := by rw [e, one_mul]; exact rnd_rep hp (rep_zpow _)
  constructor
  · intro x
    apply Subtype.ext
    show rnd p (x.1 / ((2 ^ j : ℕ) : ℝ)) = rnd p (x.1 * rnd p (1 / ((2 ^ j : ℕ) : ℝ)))
    rw [ez, e]
  · intro x y
    apply Subtype.ext
    show rnd p (rnd p (x.1 + y.1) * rnd p (1 / ((2 ^ j : ℕ) : ℝ))) = rnd p (rnd p (x.1 * rnd p (1 / ((2 ^ j : ℕ) : ℝ))) + rnd p (y.1 * rnd p (1 / ((2 ^ j : ℕ) : ℝ))))
    rw [ez, rnd_scale, rnd_scale, rnd_scale, rnd_rep hp x.2, rnd_rep hp y.2, ← add_mul, rnd_scale, rnd_rep hp (rep_rnd hp _)]

/-- **C96, powers of two.** In floating point, averages over 2, 4, 8, ... channels are the same bit for bit whether rendered sample by sample or in blocks of any sizes. -/
theorem C96_block (p : ℕ) (hp : 1 ≤ p) (j n m : ℕ) (hn : n + 1 = 2 ^ j) :
    BlockEqualsTick (join n (flAvg p hp (n + 1))) ∧ BlockEqualsTick (multiJoin m n (flAvg p hp (n + 1))) := by
  have h : (flAvg p hp (n + 1)).Exact := by rw [hn]; exact flAvg_exact hp j
  exact ⟨C14_block_equals_tick (.join n (flAvg p hp (n + 1))) h, C14_block_equals_tick (.multiJoin m n (flAvg p hp (n + 1))) h⟩

/-- The output of `join` in a block. -/
theorem join_process {p : ℕ} (hp : 1 ≤ p) {n k size : ℕ} (hk : k < size) (g : Garb (F p)) (inp : Buf (F p) (n + 1)) (out : Buf (F p) 1) :
    ((join n (flAvg p hp (n + 1))).process g () size inp out).2 0 k =
      Fin.foldl n (fun acc i => F.of hp (acc.1 + (F.of hp ((inp i.succ k).1 * rnd p (1 / (n + 1 : ℕ)))).1)) (F.of hp ((inp 0 k).1 * rnd p (1 / (n + 1 : ℕ)))) := by
  obtain ⟨ops, ho⟩ : ∃ ops, ops = flAvg p hp (n + 1) := ⟨_, rfl⟩
  rw [← ho]
  show ((join n ops).process g () size inp out).2.frame k 0 = _
  simp only [join]
  rw [foldl_setItems_frame hk (fun i (acc : Frame (F p) 1) c => ops.add (acc c) (ops.mul (inp i.succ k) ops.z))
    (fun i acc c k => ops.add (acc c k) (ops.mul (inp i.succ k) ops.z)) (fun _ _ => rfl), setItems_frame _ _ hk]
  rw [foldl_channel (fun i _ acc => ops.add acc (ops.mul (inp i.succ k) ops.z))]
  subst ho
  rfl

/-- **C96, accuracy.** For any number of channels, the average rendered sample by sample and the one rendered in blocks are both within a few roundings of the exact average. -/
theorem C96_accuracy (p : ℕ) (hp : 1 ≤ p) (n k size : ℕ) (hk : k < size) (g : Garb (F p)) (inp : Buf (F p) (n + 1)) (out : Buf (F p) 1) :
    |(((join n (flAvg p hp (n + 1))).tick () (inp.frame k)).2 0).1 - (∑ i, (inp i k).1) / (n + 1)| ≤ ((1 + 2 ^ (-(p : ℤ))) ^ (n + 1) - 1) * (∑ i, |(inp i k).1|) / (n + 1) ∧
    |(((join n (flAvg p hp (n + 1))).process g () size inp out).2 0 k).1 - (∑ i, (inp i k).1) / (n + 1)| ≤ ((1 + 2 ^ (-(p : ℤ))) ^ (n + 2) - 1) * (∑ i, |(inp i k).1|) / (n + 1) := by
  obtain ⟨u, hu⟩ : ∃ u : ℝ, u = 2 ^ (-(p : ℤ)) := ⟨_, rfl⟩
  have hu0 : 0 < u := by rw [hu]; positivity
  have hN : (0 : ℝ) < n + 1 := by positivity
  rw [← hu]
  constructor
  · show |rnd p ((Fin.foldl n (fun acc i => F.of hp (acc.1 + (inp (Fin.succ i) k).1)) (inp 0 k)).1 / ((n + 1 : ℕ) : ℝ)) - _| ≤ _
    have h := fold_err hp hu (inp 0 k) (fun i : Fin n => inp i.succ k)
    obtain ⟨S, hS⟩ : ∃ S, S = (Fin.foldl n (fun acc i => F.of hp (acc.1 + (inp (Fin.succ i) k).1)) (inp 0 k)).1 := ⟨_, rfl⟩
    rw [← hS] at h ⊢
    rw [Fin.sum_univ_succ, Fin.sum_univ_succ (f := fun i => |(inp i k).1|)]
    obtain ⟨s, hs⟩ : ∃ s, s = (inp 0 k).1 + ∑ i : Fin n, (inp i.succ k).1 := ⟨_, rfl⟩
    obtain ⟨A, hA⟩ : ∃ A, A = |(inp 0 k).1| + ∑ i : Fin n, |(inp i.succ k).1| := ⟨_, rfl⟩
    have hsA : |s| ≤ A := by
      rw [hs, hA]
      exact (abs_add_le _ _).trans (add_le_add le_rfl (Finset.abs_sum_le_sum_abs _ _))
    have hA0 : 0 ≤ A := (abs_nonneg s).trans hsA
    rw [← hs, ← hA] at h ⊢
    push_cast
    have h1 := rnd_rel (p := p) (S / (n + 1))
    rw [← hu, abs_div, abs_of_pos hN] at h1
    have h2 : |S| ≤ |S - s| + A := by
      calc |S| = |(S - s) + s| := by congr 1; ring
        _ ≤ _ := (abs_add_le _ _).trans (by linarith)
    have h3 : |rnd p (S / (n + 1)) - s / (n + 1)| ≤ |rnd p (S / (n + 1)) - S / (n + 1)| + |S - s| / (n + 1) := by
      calc |rnd p (S / (n + 1)) - s / (n + 1)| = |(rnd p (S / (n + 1)) - S / (n + 1)) + (S - s) / (n + 1)| := by congr 1; ring
        _ ≤ _ := (abs_add_le _ _).trans (by rw [abs_div, abs_of_pos hN])
    refine h3.trans ((add_le_add h1 le_rfl).trans ?_)
    rw [← mul_div_assoc, ← add_div, div_le_div_iff_of_pos_right hN, pow_succ]
    have h4 := mul_le_mul_of_nonneg_left h2 hu0.le
    have h5 := mul_le_mul_of_nonneg_right h (show 0 ≤ 1 + u by linarith)
    nlinarith
  · rw [join_process hp hk]
    obtain ⟨z, hz⟩ : ∃ z, z = rnd p (1 / (n + 1 : ℕ)) := ⟨_, rfl⟩
    rw [← hz]
    have h := fold_err hp hu (F.of hp ((inp 0 k).1 * z)) (fun i : Fin n => F.of hp ((inp i.succ k).1 * z))
    obtain ⟨S, hS⟩ : ∃ S, S = (Fin.foldl n (fun acc i => F.of hp (acc.1 + (F.of hp ((inp (Fin.succ i) k).1 * z)).1)) (F.of hp ((inp 0 k).1 * z))).1 := ⟨_, rfl⟩
    rw [← hS] at h ⊢
    -- each term
    have hze : |z - 1 / (n + 1)| ≤ u * (1 / (n + 1)) := by
      have := rnd_rel (p := p) (1 / ((n + 1 : ℕ) : ℝ))
      rw [← hz, ← hu] at this
      push_cast at this
      rwa [abs_of_pos (show (0 : ℝ) < 1 / (n + 1) by positivity)] at this
    have term : ∀ x : ℝ, |rnd p (x * z) - x / (n + 1)| ≤ ((1 + u) ^ 2 - 1) * (|x| / (n + 1)) := by
      intro x
      have h1 := rnd_rel (p := p) (x * z)
      rw [← hu] at h1
      have h2 : |x * z - x / (n + 1)| ≤ u * (|x| / (n + 1)) := by
        rw [show x * z - x / (n + 1) = x * (z - 1 / (n + 1)) by ring, abs_mul]
        calc |x| * |z - 1 / (n + 1)| ≤ |x| * (u * (1 / (n + 1))) := mul_le_mul_of_nonneg_left hze (abs_nonneg x)
          _ = _ := by ring
      have h3 : |x * z| ≤ |x * z - x / (n + 1)| + |x| / (n + 1) := by
        calc |x * z| = |(x * z - x / (n + 1)) + x / (n + 1)| := by congr 1; ring
          _ ≤ _ := (abs_add_le _ _).trans (by rw [abs_div, abs_of_pos hN])
      have h4 : |rnd p (x * z) - x / (n + 1)| ≤ |rnd p (x * z) - x * z| + |x * z - x / (n + 1)| := by
        calc |rnd p (x * z) - x / (n + 1)| = |(rnd p (x * z) - x * z) + (x * z - x / (n + 1))| := by congr 1; ring
          _ ≤ _ := abs_add_le _ _
      have h5 : 0 ≤ |x| / (n + 1) := by positivity
      nlinarith [mul_le_mul_of_nonneg_left h3 hu0.le, mul_le_mul_of_nonneg_left h2 hu0.le]
    have termA : ∀ x : ℝ, |rnd p (x * z)| ≤ (1 + u) ^ 2 * (|x| / (n + 1)) := by
      intro x
      have h1 := term x
      have h2 : |rnd p (x * z)| ≤ |rnd p (x * z) - x / (n + 1)| + |x| / (n + 1) := by
        calc |rnd p (x * z)| = |(rnd p (x * z) - x / (n + 1)) + x / (n + 1)| := by congr 1; ring
          _ ≤ _ := (abs_add_le _ _).trans (by rw [abs_div, abs_of_pos hN])
      linarith
    have e0 : ∀ x : ℝ, (F.of hp x).1 = rnd p x := fun _ => rfl
    simp only [e0] at h
    have key : ∑ i : Fin (n + 1), rnd p ((inp i k).1 * z) = rnd p ((inp 0 k).1 * z) + ∑ i : Fin n, rnd p ((inp i.succ k).1 * z) := Fin.sum_univ_succ _
    have keyA : ∑ i : Fin (n + 1), |rnd p ((inp i k).1 * z)| = |rnd p ((inp 0 k).1 * z)| + ∑ i : Fin n, |rnd p ((inp i.succ k).1 * z)| := Fin.sum_univ_succ _
    rw [← key, ← keyA] at h
    have hA : ∑ i : Fin (n + 1), |rnd p ((inp i k).1 * z)| ≤ (1 + u) ^ 2 * ((∑ i, |(inp i k).1|) / (n + 1)) := by
      rw [Finset.sum_div, Finset.mul_sum]
      exact Finset.sum_le_sum fun i _ => termA _
    have hD : |∑ i : Fin (n + 1), rnd p ((inp i k).1 * z) - (∑ i, (inp i k).1) / (n + 1)| ≤ ((1 + u) ^ 2 - 1) * ((∑ i, |(inp i k).1|) / (n + 1)) := by
      rw [Finset.sum_div, Finset.sum_div, ← Finset.sum_sub_distrib, Finset.mul_sum]
      exact (Finset.abs_sum_le_sum_abs _ _).trans (Finset.sum_le_sum fun i _ => term _)
    have hq : 1 ≤ (1 + u) ^ n := one_le_pow₀ (by linarith)
    have h6 : |S - (∑ i, (inp i k).1) / (n + 1)| ≤ |S - ∑ i : Fin (n + 1), rnd p ((inp i k).1 * z)| + |∑ i : Fin (n + 1), rnd p ((inp i k).1 * z) - (∑ i, (inp i k).1) / (n + 1)| := by
      calc |S - (∑ i, (inp i k).1) / (n + 1)| = |(S - ∑ i : Fin (n + 1), rnd p ((inp i k).1 * z)) + (∑ i : Fin (n + 1), rnd p ((inp i k).1 * z) - (∑ i, (inp i k).1) / (n + 1))| := by congr 1; ring
        _ ≤ _ := abs_add_le _ _
    have h7 := mul_le_mul_of_nonneg_left hA (show 0 ≤ (1 + u) ^ n - 1 by linarith)
    rw [pow_add, mul_div_assoc]
    refine h6.trans ((add_le_add (h.trans h7) hD).trans (le_of_eq ?_))
    ring

/-- Numbers used below. -/
def fint (n : ℤ) (h : |n| ≤ 2 ^ 24) : F 24 := ⟨n, rep_int h⟩

theorem third : rnd 24 (1 / ((2 + 1 : ℕ) : ℝ)) = 11184811 * (2 : ℝ) ^ (-25 : ℤ) := by
  rw [rnd_of (k := -2) (by rw [abs_of_nonneg (by norm_num)]; norm_num) (by rw [abs_of_nonneg (by norm_num)]; norm_num), roundEven_of_near (n := 11184811) (by norm_num [abs_lt])]
  norm_num

/-- **C96 fails for three channels.** The average of 5, 0 and 0 in single precision depends on whether it is rendered sample by sample or in a block. -/
theorem C96_violation_join (g : Garb (F 24)) (out : Buf (F 24) 1) (inp : Buf (F 24) 3)
    (h : (inp 0 0).1 = 5 ∧ (inp 1 0).1 = 0 ∧ (inp 2 0).1 = 0) :
    (((join 2 (flAvg 24 (by norm_num) 3)).tick () (inp.frame 0)).2 0).1 = 13981013 * 2 ^ (-23 : ℤ) ∧
    (((join 2 (flAvg 24 (by norm_num) 3)).process g () 64 inp out).2 0 0).1 = 13981014 * 2 ^ (-23 : ℤ) := by
  have hp : (1 : ℕ) ≤ 24 := by norm_num
  obtain ⟨h0, h1, h2⟩ := h
  have r5 : rnd 24 (5 : ℝ) = 5 := rnd_rep hp ⟨5, 0, by norm_num, by norm_num⟩
  constructor
  · show rnd 24 ((Fin.foldl 2 (fun acc i => F.of hp (acc.1 + (inp (Fin.succ i) 0).1)) (inp 0 0)).1 / ((3 : ℕ) : ℝ)) = _
    have e : (Fin.foldl 2 (fun acc i => F.of hp (acc.1 + (inp (Fin.succ i) 0).1)) (inp 0 0)).1 = rnd 24 (rnd 24 ((inp 0 0).1 + (inp 1 0).1) + (inp 2 0).1) := rfl
    rw [e, h0, h1, h2, add_zero, add_zero, r5, r5]
    rw [rnd_of (k := 0) (by rw [abs_of_nonneg (by norm_num)]; norm_num) (by rw [abs_of_nonneg (by norm_num)]; norm_num), roundEven_of_near (n := 13981013) (by norm_num [abs_lt])]
    norm_num
  · have := join_process (n := 2) hp (k := 0) (size := 64) (by norm_num) g inp out
    rw [this]
    have e : (Fin.foldl 2 (fun acc i => F.of hp (acc.1 + (F.of hp ((inp (Fin.succ i) 0).1 * rnd 24 (1 / ((2 + 1 : ℕ) : ℝ)))).1)) (F.of hp ((inp 0 0).1 * rnd 24 (1 / ((2 + 1 : ℕ) : ℝ))))).1 =
      rnd 24 (rnd 24 (rnd 24 ((inp 0 0).1 * rnd 24 (1 / ((2 + 1 : ℕ) : ℝ))) + rnd 24 ((inp 1 0).1 * rnd 24 (1 / ((2 + 1 : ℕ) : ℝ)))) + rnd 24 ((inp 2 0).1 * rnd 24 (1 / ((2 + 1 : ℕ) : ℝ)))) := rfl
    rw [e, h0, h1, h2, third, zero_mul, rnd_zero, add_zero, add_zero, rnd_rep hp (rep_rnd hp _), rnd_rep hp (rep_rnd hp _)]
    rw [rnd_of (k := 0) (by rw [abs_of_nonneg (by norm_num)]; norm_num) (by rw [abs_of_nonneg (by norm_num)]; norm_num), roundEven_of_near (n := 13981014) (by norm_num [abs_lt])]
    norm_num

/-- **C96, splitting and joining two.** `split::<U2>() >> join::<U2>()` is exactly the identity in floating point. -/
theorem C96_split_join (p : ℕ) (hp : 1 ≤ p) (w : ℕ → Frame (F p) 1) : (pipe (split 2) (join 1 (flAvg p hp 2))).stream ((), ()) w = w := by
  refine (C15_pipe (split 2) (join 1 (flAvg p hp 2)) () () w).trans ?_
  funext k c
  have hc : c = 0 := Subsingleton.elim _ _
  subst hc
  apply Subtype.ext
  show rnd p (rnd p ((w k 0).1 + (w k 0).1) / ((2 : ℕ) : ℝ)) = (w k 0).1
  have e : (w k 0).1 + (w k 0).1 = (w k 0).1 * 2 ^ (1 : ℤ) := by norm_num; ring
  rw [e, rnd_scale, rnd_rep hp (w k 0).2]
  rw [show (w k 0).1 * 2 ^ (1 : ℤ) / ((2 : ℕ) : ℝ) = (w k 0).1 by norm_num, rnd_rep hp (w k 0).2]

/-- **C96 fails for splitting and joining three.** In a block, `split::<U3>() >> join::<U3>()` turns 7 into `7 + 2 ^ -21`. -/
theorem C96_violation_split_join (g : Garb (F 24)) (inp : Buf (F 24) 1) (out : Buf (F 24) 1) (h : (inp 0 0).1 = 7) :
    (((pipe (split 3) (join 2 (flAvg 24 (by norm_num) 3))).process g ((), ()) 64 inp out).2 0 0).1 = 7 + 2 ^ (-21 : ℤ) := by
  have hp : (1 : ℕ) ≤ 24 := by norm_num
  obtain ⟨mid, hmid⟩ : ∃ mid : Buf (F 24) 3, mid = ((split 3 : Node (F 24) 1 3).process g.left () 64 inp (g.buf 3)).2 := ⟨_, rfl⟩
  have hm : ∀ c : Fin 3, (mid c 0).1 = 7 := by
    intro c
    have e : mid.frame 0 = fun _ => inp 0 0 := by rw [hmid]; exact setItems_frame _ _ (by norm_num)
    have := congrFun e c
    rw [show mid c 0 = inp 0 0 from this, h]
  obtain ⟨g', hg'⟩ : ∃ g', ((pipe (split 3) (join 2 (flAvg 24 hp 3))).process g ((), ()) 64 inp out).2 = ((join 2 (flAvg 24 hp 3)).process g' () 64 mid out).2 := by
    rw [hmid]; exact ⟨g.right, rfl⟩
  rw [hg']
  have := join_process (n := 2) hp (k := 0) (size := 64) (by norm_num) g' mid out
  rw [this]
  have e : (Fin.foldl 2 (fun acc i => F.of hp (acc.1 + (F.of hp ((mid (Fin.succ i) 0).1 * rnd 24 (1 / ((2 + 1 : ℕ) : ℝ)))).1)) (F.of hp ((mid 0 0).1 * rnd 24 (1 / ((2 + 1 : ℕ) : ℝ))))).1 =
      rnd 24 (rnd 24 (rnd 24 ((mid 0 0).1 * rnd 24 (1 / ((2 + 1 : ℕ) : ℝ))) + rnd 24 ((mid 1 0).1 * rnd 24 (1 / ((2 + 1 : ℕ) : ℝ)))) + rnd 24 ((mid 2 0).1 * rnd 24 (1 / ((2 + 1 : ℕ) : ℝ)))) := rfl
  rw [e, hm, hm, hm, third]
  have e1 : rnd 24 (7 * (11184811 * (2 : ℝ) ^ (-25 : ℤ))) = 9786710 * (2 : ℝ) ^ (-22 : ℤ) := by
    rw [rnd_of (k := 1) (by rw [abs_of_nonneg (by norm_num)]; norm_num) (by rw [abs_of_nonneg (by norm_num)]; norm_num), roundEven_of_near (n := 9786710) (by norm_num [abs_lt])]
    norm_num
  have e2 : rnd 24 (9786710 * (2 : ℝ) ^ (-22 : ℤ) + 9786710 * (2 : ℝ) ^ (-22 : ℤ)) = 9786710 * (2 : ℝ) ^ (-21 : ℤ) := by
    have := rnd_rep hp (x := 9786710 * (2 : ℝ) ^ (-21 : ℤ)) ⟨9786710, -21, by norm_num, by norm_num⟩
    refine Eq.trans (congrArg (rnd 24) ?_) this; norm_num
  have e3 : rnd 24 (9786710 * (2 : ℝ) ^ (-21 : ℤ) + 9786710 * (2 : ℝ) ^ (-22 : ℤ)) = 7 + (2 : ℝ) ^ (-21 : ℤ) := by
    have := rnd_rep hp (x := 7 + (2 : ℝ) ^ (-21 : ℤ)) ⟨14680065, -21, by norm_num, by norm_num⟩
    refine Eq.trans (congrArg (rnd 24) ?_) this; norm_num
  rw [e1, e2, e3]

/-! ## Cases meeting the hypotheses -/

example : BlockEqualsTick (join 3 (flAvg 24 (by norm_num) 4)) := (C96_block 24 (by norm_num) 2 3 2 (by norm_num)).1

example : ∃ inp : Buf (F 24) 3, (inp 0 0).1 = 5 ∧ (inp 1 0).1 = 0 ∧ (inp 2 0).1 = 0 :=
  ⟨fun c _ => if c = 0 then fint 5 (by norm_num) else fint 0 (by norm_num), by simp [fint]⟩

example : ∃ inp : Buf (F 24) 1, (inp 0 0).1 = 7 := ⟨fun _ _ => fint 7 (by norm_num), by simp [fint]⟩

end Fundsp.Fl
