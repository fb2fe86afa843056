import Verif.Mem.Model

/-! Lemmas on memory. -/

namespace Fundsp.Mem

/-- Capacity suffices for everything the unit does between two calls of `set_sample_rate`. -/
def Tree.Settled : Tree → Prop
  | .plain => True
  | .limiter sr look b => limLen sr look ≤ b.cap
  | .pluck sr f _ l => lineLen sr f ≤ l.cap
  | .one _ x => x.Settled
  | .two _ x y => x.Settled ∧ y.Settled
  | .many _ _ x => ∀ i, (x i).Settled
  | .net o _ _ x => o = true ∧ ∀ i, (x i).Settled

/-- An initialised line is in place. -/
def Tree.Sane : Tree → Prop
  | .plain => True
  | .limiter _ _ b => b.len ≤ b.cap
  | .pluck sr f init l => l.len ≤ l.cap ∧ (init = true → l.len = lineLen sr f)
  | .one _ x => x.Sane
  | .two _ x y => x.Sane ∧ y.Sane
  | .many _ _ x => ∀ i, (x i).Sane
  | .net _ _ _ x => ∀ i, (x i).Sane

theorem reserve_cap (g : Grow) (v : VecMem) (n : Nat) : v.len + n ≤ (v.reserve g n).cap ∧ v.cap ≤ (v.reserve g n).cap ∨ v.len + n ≤ (v.reserve g n).cap := by
  unfold VecMem.reserve
  split
  · exact Or.inl ⟨by assumption, le_rfl⟩
  · exact Or.inr (g.enough _ _ _)

theorem reserve_enough (g : Grow) (v : VecMem) (n : Nat) : v.len + n ≤ (v.reserve g n).cap := by
  rcases reserve_cap g v n with h | h
  · exact h.1
  · exact h

theorem resize_ok (g : Grow) (v : VecMem) (n : Nat) (h : v.len ≤ v.cap) : n ≤ (v.resize g n).cap ∧ (v.resize g n).len = n := by
  unfold VecMem.resize
  split
  · exact ⟨by simp only; omega, rfl⟩
  · have := reserve_enough g v (n - v.len)
    exact ⟨by simp only; omega, rfl⟩

theorem resize_quiet (g : Grow) (v : VecMem) (n : Nat) (h : n ≤ v.cap) : (v.resize g n).asked = v.asked ∧ (v.resize g n).cap = v.cap := by
  unfold VecMem.resize
  split
  · exact ⟨rfl, rfl⟩
  · have : v.reserve g (n - v.len) = v := if_pos (by omega)
    simp [this]

theorem resize_asked (g : Grow) (v : VecMem) (n : Nat) : v.asked ≤ (v.resize g n).asked := by
  unfold VecMem.resize VecMem.reserve
  split
  · exact le_rfl
  · split <;> simp

theorem limTick_quiet (g : Grow) (L : Nat) (b : VecMem) (h : L ≤ b.cap) : (limTick g L b).asked = b.asked ∧ (limTick g L b).cap = b.cap := by
  unfold limTick
  split
  · have : b.reserve g 1 = b := if_pos (by omega)
    simp [VecMem.push, this]
  · exact ⟨rfl, rfl⟩

theorem limTicks_quiet (g : Grow) (L : Nat) : ∀ (n : Nat) (b : VecMem), L ≤ b.cap →
    ((limTick g L)^[n] b).asked = b.asked ∧ ((limTick g L)^[n] b).cap = b.cap
  | 0, b, _ => ⟨rfl, rfl⟩
  | n + 1, b, h => by
    have h1 := limTick_quiet g L b h
    have h2 := limTicks_quiet g L n (limTick g L b) (by omega)
    rw [Function.iterate_succ_apply]
    omega

theorem limTick_asked (g : Grow) (L : Nat) (b : VecMem) : b.asked ≤ (limTick g L b).asked := by
  unfold limTick VecMem.push VecMem.reserve
  split
  · split <;> simp
  · exact le_rfl

theorem limTicks_asked (g : Grow) (L : Nat) : ∀ (n : Nat) (b : VecMem), b.asked ≤ ((limTick g L)^[n] b).asked
  | 0, _ => le_rfl
  | n + 1, b => by
    rw [Function.iterate_succ_apply]
    exact (limTick_asked g L b).trans (limTicks_asked g L n _)

/-- A limiter whose buffer has too little capacity asks for memory while filling it. -/
theorem limTicks_ask (g : Grow) (L : Nat) : ∀ (k : Nat) (b : VecMem), b.len + k = b.cap → b.cap < L → ∀ n, k < n →
    b.asked < ((limTick g L)^[n] b).asked
  | 0, b, h, hL, n, hn => by
    obtain ⟨m, rfl⟩ : ∃ m, n = m + 1 := ⟨n - 1, by omega⟩
    rw [Function.iterate_succ_apply]
    refine lt_of_lt_of_le ?_ (limTicks_asked g L m _)
    have h1 : limTick g L b = b.push g := if_pos (by omega)
    have h2 : b.reserve g 1 = { b with cap := g.size b.len b.cap 1, asked := b.asked + 1 } := if_neg (by omega)
    rw [h1]
    simp [VecMem.push, h2]
  | k + 1, b, h, hL, n, hn => by
    obtain ⟨m, rfl⟩ : ∃ m, n = m + 1 := ⟨n - 1, by omega⟩
    rw [Function.iterate_succ_apply]
    have h1 : limTick g L b = b.push g := if_pos (by omega)
    have h2 : b.reserve g 1 = b := if_pos (by omega)
    have h3 : b.push g = { b with len := b.len + 1 } := by simp [VecMem.push, h2]
    rw [h1, h3]
    exact limTicks_ask g L k { b with len := b.len + 1 } (by show b.len + 1 + k = b.cap; omega) hL m (by omega)

theorem hash_asked : ∀ t : Tree, t.hash.asked = t.asked
  | .plain => rfl
  | .limiter _ _ _ => rfl
  | .pluck _ _ _ _ => rfl
  | .one _ x => hash_asked x
  | .two _ x y => by simp [Tree.hash, Tree.asked, hash_asked x, hash_asked y]
  | .many _ _ x => by simp [Tree.hash, Tree.asked, fun i => hash_asked (x i)]
  | .net _ _ _ x => by simp [Tree.hash, Tree.asked, fun i => hash_asked (x i)]

theorem hash_settled : ∀ t : Tree, t.hash.Settled ↔ t.Settled
  | .plain => Iff.rfl
  | .limiter _ _ _ => Iff.rfl
  | .pluck _ _ _ _ => Iff.rfl
  | .one _ x => hash_settled x
  | .two _ x y => and_congr (hash_settled x) (hash_settled y)
  | .many _ _ x => forall_congr' fun i => hash_settled (x i)
  | .net _ _ _ x => and_congr Iff.rfl (forall_congr' fun i => hash_settled (x i))

theorem hash_sane : ∀ t : Tree, t.Sane → t.hash.Sane
  | .plain, h => h
  | .limiter _ _ _, h => h
  | .pluck _ _ _ _, h => ⟨h.1, fun h => nomatch h⟩
  | .one _ x, h => hash_sane x h
  | .two _ x y, h => ⟨hash_sane x h.1, hash_sane y h.2⟩
  | .many _ _ x, h => fun i => hash_sane (x i) (h i)
  | .net _ _ _ x, h => fun i => hash_sane (x i) (h i)

theorem reset_asked : ∀ t : Tree, t.asked ≤ t.reset.asked
  | .plain => le_rfl
  | .limiter _ _ _ => le_rfl
  | .pluck _ _ _ _ => le_rfl
  | .one _ x => reset_asked x
  | .two _ x y => Nat.add_le_add (reset_asked x) (reset_asked y)
  | .many _ _ x => Finset.sum_le_sum fun i _ => reset_asked (x i)
  | .net o a m x => by
    unfold Tree.reset
    split
    · exact Nat.add_le_add le_rfl (Finset.sum_le_sum fun i _ => reset_asked (x i))
    · refine Nat.add_le_add (Nat.le_succ _) (Finset.sum_le_sum fun i _ => ?_)
      rw [hash_asked]
      exact reset_asked (x i)

/-- A settled unit is reset without asking for memory, and stays settled. -/
theorem reset_quiet : ∀ t : Tree, t.Settled → t.reset.asked = t.asked ∧ t.reset.Settled
  | .plain, h => ⟨rfl, h⟩
  | .limiter _ _ _, h => ⟨rfl, h⟩
  | .pluck _ _ _ _, h => ⟨rfl, h⟩
  | .one _ x, h => reset_quiet x h
  | .two _ x y, h => by
    have h1 := reset_quiet x h.1
    have h2 := reset_quiet y h.2
    exact ⟨by simp [Tree.reset, Tree.asked, h1.1, h2.1], h1.2, h2.2⟩
  | .many _ _ x, h => by
    have h1 := fun i => reset_quiet (x i) (h i)
    exact ⟨by simp [Tree.reset, Tree.asked, fun i => (h1 i).1], fun i => (h1 i).2⟩
  | .net o a m x, h => by
    obtain ⟨rfl, h⟩ := h
    have h1 := fun i => reset_quiet (x i) (h i)
    exact ⟨by simp [Tree.reset, Tree.asked, fun i => (h1 i).1], rfl, fun i => (h1 i).2⟩

/-- A settled unit plays without asking for memory, and stays settled. -/
theorem play_quiet (g : Grow) (w : Nat → Nat → Nat) : ∀ (t : Tree) (h : Bool) (n : Nat), t.Settled →
    (t.playAfter g w h n).asked = t.asked ∧ (t.playAfter g w h n).Settled
  | .plain, _, _, _ => ⟨rfl, trivial⟩
  | .limiter sr look b, _, n, ht => by
    have := limTicks_quiet g (limLen sr look) n b ht
    exact ⟨this.1, by show _ ≤ _; rw [this.2]; exact ht⟩
  | .pluck sr f init l, h, n, ht => by
    unfold Tree.playAfter
    split
    · exact ⟨rfl, ht⟩
    · have := resize_quiet g l (lineLen sr f) ht
      exact ⟨this.1, by show _ ≤ _; rw [this.2]; exact ht⟩
  | .one k x, h, n, ht => play_quiet g w x h (k.inner w n) ht
  | .two _ x y, h, n, ht => by
    have h1 := play_quiet g w x h n ht.1
    have h2 := play_quiet g w y h n ht.2
    exact ⟨by simp [Tree.playAfter, Tree.asked, h1.1, h2.1], h1.2, h2.2⟩
  | .many _ _ x, h, n, ht => by
    have h1 := fun i => play_quiet g w (x i) h n (ht i)
    exact ⟨by simp [Tree.playAfter, Tree.asked, fun i => (h1 i).1], fun i => (h1 i).2⟩
  | .net o a m x, h, n, ht => by
    obtain ⟨rfl, ht⟩ := ht
    have h1 := fun i => play_quiet g w (x i) h n (ht i)
    have : (Tree.net true a m x).playAfter g w h n = .net true a m fun i => (x i).playAfter g w h n := if_pos (Or.inr rfl)
    rw [this]
    exact ⟨by simp [Tree.asked, fun i => (h1 i).1], rfl, fun i => (h1 i).2⟩

theorem calls_quiet (g : Grow) : ∀ (l : List Call) (t : Tree), t.Settled → (t.calls g l).asked = t.asked ∧ (t.calls g l).Settled
  | [], _, h => ⟨rfl, h⟩
  | c :: l, t, h => by
    have h1 : (t.call g c).asked = t.asked ∧ (t.call g c).Settled := by
      cases c with
      | play n w => exact play_quiet g w t false n h
      | reset => exact reset_quiet t h
      | hash => exact ⟨hash_asked t, (hash_settled t).2 h⟩
    have h2 := calls_quiet g l (t.call g c) h1.2
    exact ⟨h2.1.trans h1.1, h2.2⟩

theorem play_asked (g : Grow) (w : Nat → Nat → Nat) : ∀ (t : Tree) (h : Bool) (n : Nat), t.asked ≤ (t.playAfter g w h n).asked
  | .plain, _, _ => le_rfl
  | .limiter _ _ _, _, n => limTicks_asked g _ n _
  | .pluck _ _ _ _, h, n => by
    unfold Tree.playAfter
    split
    · exact le_rfl
    · exact resize_asked _ _ _
  | .one k x, h, n => play_asked g w x h (k.inner w n)
  | .two _ x y, h, n => Nat.add_le_add (play_asked g w x h n) (play_asked g w y h n)
  | .many _ _ x, h, n => Finset.sum_le_sum fun i _ => play_asked g w (x i) h n
  | .net o a m x, h, n => by
    unfold Tree.playAfter
    split
    · exact Nat.add_le_add le_rfl (Finset.sum_le_sum fun i _ => play_asked g w (x i) h n)
    · exact Nat.add_le_add (Nat.le_succ _) (Finset.sum_le_sum fun i _ => play_asked g w (x i) true n)

/-- Every inner unit gets at least as many samples as the outer one. -/
theorem inner_le (n : Nat) (k : One) : n ≤ k.inner (fun _ n => n) n := by
  cases k <;> simp [One.inner] <;> omega

/-- A unit that is not settled asks for memory when it is reset and played. -/
theorem play_asks (g : Grow) : ∀ (t : Tree), t.Sane → ¬ t.Settled → ∃ N, ∀ n h, N ≤ n →
    t.asked < (t.reset.playAfter g (fun _ n => n) h n).asked
  | .plain, _, h => absurd trivial h
  | .limiter sr look b, _, h => by
    refine ⟨b.cap + 1, fun n _ hn => ?_⟩
    have h' : b.cap < limLen sr look := by
      have : ¬ limLen sr look ≤ b.cap := h
      omega
    exact limTicks_ask g (limLen sr look) b.cap b.clear (by simp [VecMem.clear]) h' n (by omega)
  | .pluck sr f init l, hs, h => by
    refine ⟨1, fun n c hn => ?_⟩
    have h' : l.cap < lineLen sr f := by
      have : ¬ lineLen sr f ≤ l.cap := h
      omega
    have hl := hs.1
    have e1 : (Tree.pluck sr f init l).reset.playAfter g (fun _ n => n) c n = .pluck sr f true (l.resize g (lineLen sr f)) :=
      if_neg (by simp; omega)
    rw [e1]
    show l.asked < (l.resize g (lineLen sr f)).asked
    have e2 : l.reserve g (lineLen sr f - l.len) = { l with cap := g.size l.len l.cap (lineLen sr f - l.len), asked := l.asked + 1 } :=
      if_neg (by omega)
    have e3 : l.resize g (lineLen sr f) = { l.reserve g (lineLen sr f - l.len) with len := lineLen sr f } := if_neg (by omega)
    rw [e3, e2]
    exact Nat.lt_succ_self _
  | .one k x, hs, h => by
    obtain ⟨N, hN⟩ := play_asks g x hs h
    exact ⟨N, fun n c hn => hN _ c (hn.trans (inner_le n k))⟩
  | .two k x y, hs, h => by
    by_cases hx : x.Settled
    · have hy : ¬ y.Settled := fun hy => h ⟨hx, hy⟩
      obtain ⟨N, hN⟩ := play_asks g y hs.2 hy
      refine ⟨N, fun n c hn => Nat.add_lt_add_of_le_of_lt ?_ (hN n c hn)⟩
      exact (reset_asked x).trans (play_asked _ _ _ _ _)
    · obtain ⟨N, hN⟩ := play_asks g x hs.1 hx
      refine ⟨N, fun n c hn => Nat.add_lt_add_of_lt_of_le (hN n c hn) ?_⟩
      exact (reset_asked y).trans (play_asked _ _ _ _ _)
  | .many k m x, hs, h => by
    have : ∃ i, ¬ (x i).Settled := not_forall.1 h
    obtain ⟨i, hi⟩ := this
    obtain ⟨N, hN⟩ := play_asks g (x i) (hs i) hi
    refine ⟨N, fun n c hn => Finset.sum_lt_sum (fun j _ => ?_) ⟨i, Finset.mem_univ i, hN n c hn⟩⟩
    exact (reset_asked (x j)).trans (play_asked _ _ _ _ _)
  | .net o a m x, hs, h => by
    cases o with
    | false =>
      refine ⟨1, fun n c hn => ?_⟩
      refine lt_of_lt_of_le ?_ (play_asked _ _ _ _ _)
      refine Nat.add_lt_add_of_lt_of_le (Nat.lt_succ_self _) (Finset.sum_le_sum fun j _ => ?_)
      rw [hash_asked]
      exact reset_asked (x j)
    | true =>
      have : ∃ i, ¬ (x i).Settled := not_forall.1 fun h' => h ⟨rfl, h'⟩
      obtain ⟨i, hi⟩ := this
      obtain ⟨N, hN⟩ := play_asks g (x i) (hs i) hi
      refine ⟨N, fun n c hn => ?_⟩
      have e1 : (Tree.net true a m x).reset.playAfter g (fun _ n => n) c n =
          .net true a m fun i => (x i).reset.playAfter g (fun _ n => n) c n := if_pos (Or.inr rfl)
      rw [e1]
      refine Nat.add_lt_add_of_le_of_lt le_rfl (Finset.sum_lt_sum (fun j _ => ?_) ⟨i, Finset.mem_univ i, hN n c hn⟩)
      exact (reset_asked (x j)).trans (play_asked _ _ _ _ _)

end Fundsp.Mem
