import Verif.Dyn.Model
import Mathlib.Data.Nat.Bitwise

/-! C46: the hierarchic reducer. -/

namespace Fundsp.Dyn

variable {T : Type}

/-- Specification. The monoid laws, on the values that satisfy `P`. -/
structure Laws (op : T → T → T) (zero : T) (P : T → Prop) : Prop where
  hzero : P zero
  hop : ∀ a b, P a → P b → P (op a b)
  comm : ∀ a b, P a → P b → op a b = op b a
  assoc : ∀ a b c, P a → P b → P c → op (op a b) c = op a (op b c)
  left : ∀ a, P a → op zero a = a

/-- Specification. The value stored last at index `j`. -/
def latest (zero : T) (sets : List (Nat × T)) (j : Nat) : T :=
  sets.foldl (fun acc s => if s.1 = j then s.2 else acc) zero

/-- Specification. The combination of all values. -/
def combined (op : T → T → T) (zero : T) (n : Nat) (v : Nat → T) : T := (List.range n).foldl (fun acc j => op acc (v j)) zero

/-- Performs stores in order. -/
def rbSets (op : T → T → T) (b : RB T) : List (Nat × T) → Option (RB T)
  | [] => some b
  | s :: ss => (rbSet op b s.1 s.2).bind fun b' => rbSets op b' ss

section
variable {op : T → T → T} {zero : T} {P : T → Prop}

theorem Laws.right (L : Laws op zero P) (a : T) (h : P a) : op a zero = a := by rw [L.comm a zero h L.hzero, L.left a h]

theorem Laws.foldl (L : Laws op zero P) {ι : Type} (v : ι → T) (l : List ι) (hv : ∀ j ∈ l, P (v j)) : ∀ a, P a →
    l.foldl (fun acc j => op acc (v j)) a = op a (l.foldl (fun acc j => op acc (v j)) zero) ∧ P (l.foldl (fun acc j => op acc (v j)) a) := by
  induction l with
  | nil => intro a ha; exact ⟨(L.right a ha).symm, ha⟩
  | cons j l ih =>
    intro a ha
    have hj := hv j (List.mem_cons_self)
    have ih' := ih (fun k hk => hv k (List.mem_cons_of_mem _ hk))
    simp only [List.foldl_cons]
    obtain ⟨h1, h2⟩ := ih' (op a (v j)) (L.hop _ _ ha hj)
    refine ⟨?_, h2⟩
    have h3 := (ih' zero L.hzero).2
    rw [h1, L.left _ hj, (ih' (v j) hj).1, L.assoc _ _ _ ha hj h3]

theorem combined_P (L : Laws op zero P) {n : Nat} {v : Nat → T} (hv : ∀ j, P (v j)) : P (combined op zero n v) :=
  (L.foldl v _ (fun j _ => hv j) zero L.hzero).2

theorem combined_add (L : Laws op zero P) {n m : Nat} {v : Nat → T} (hv : ∀ j, P (v j)) :
    combined op zero (n + m) v = op (combined op zero n v) (combined op zero m (fun j => v (n + j))) := by
  unfold combined
  rw [List.range_add, List.foldl_append, List.foldl_map]
  exact (L.foldl (fun j => v (n + j)) _ (fun j _ => hv _) _ (combined_P L hv)).1

theorem combined_zeros (L : Laws op zero P) {m : Nat} {v : Nat → T} (hv : ∀ j < m, v j = zero) : combined op zero m v = zero := by
  unfold combined
  induction m with
  | zero => rfl
  | succ m ih =>
    rw [List.range_succ, List.foldl_append, ih (fun j hj => hv j (by omega))]
    show op zero (v m) = zero
    rw [hv m (by omega), L.left _ L.hzero]

theorem combined_congr {n : Nat} {v w : Nat → T} (h : ∀ j < n, v j = w j) : combined op zero n v = combined op zero n w := by
  unfold combined
  induction n with
  | zero => rfl
  | succ m ih => rw [List.range_succ, List.foldl_append, List.foldl_append, ih (fun j hj => h j (by omega))]; simp [h m (by omega)]

/-- Every internal node is the combination of its children. Nodes past the end of the buffer count as zero. -/
def Tree (op : T → T → T) (zero : T) (leaf : Nat) (b : List T) : Prop :=
  ∀ k, 1 ≤ k → k < leaf → b.getD k zero = op (b.getD (2 * k) zero) (b.getD (2 * k + 1) zero)

theorem tree_combined (L : Laws op zero P) {leaf : Nat} {b : List T} (hb : ∀ j, P (b.getD j zero)) (ht : Tree op zero leaf b) :
    ∀ h k, 1 ≤ k → k * 2 ^ h < leaf + leaf → (h = 0 ∨ (k + 1) * 2 ^ h ≤ leaf + leaf) →
      (∀ m, m < h → k * 2 ^ m < leaf ∧ (k + 1) * 2 ^ m ≤ leaf) → b.getD k zero = combined op zero (2 ^ h) (fun j => b.getD (k * 2 ^ h + j) zero) := by
  intro h
  induction h with
  | zero => 
    intro k _ _ _ _
    show _ = op zero (b.getD (k * 2 ^ 0 + 0) zero)
    rw [pow_zero, Nat.mul_one, Nat.add_zero, L.left _ (hb k)]
  | succ h ih =>
    intro k hk h1 h2 h3
    have e1 : k * 2 ^ (h + 1) = 2 * k * 2 ^ h := by rw [pow_succ]; ring
    have e2 : k * 2 ^ (h + 1) + 2 ^ h = (2 * k + 1) * 2 ^ h := by rw [pow_succ]; ring
    have e3 : (k + 1) * 2 ^ (h + 1) = (2 * k + 1 + 1) * 2 ^ h := by rw [pow_succ]; ring
    have hpos := Nat.two_pow_pos h
    have h2' : (k + 1) * 2 ^ (h + 1) ≤ leaf + leaf := by rcases h2 with h2 | h2; omega; exact h2
    have hk0 := (h3 0 (by omega)).1
    rw [pow_zero, Nat.mul_one] at hk0
    rw [ht k hk hk0, show 2 ^ (h + 1) = 2 ^ h + 2 ^ h by rw [pow_succ]; ring, combined_add L (fun j => hb _)]
    have a3 : ∀ m, m < h → k * 2 ^ (m + 1) < leaf ∧ (k + 1) * 2 ^ (m + 1) ≤ leaf := fun m hm => h3 (m + 1) (by omega)
    have f1 : ∀ m, k * 2 ^ (m + 1) = 2 * k * 2 ^ m := fun m => by rw [pow_succ]; ring
    have f2 : ∀ m, (k + 1) * 2 ^ (m + 1) = (2 * k + 1 + 1) * 2 ^ m := fun m => by rw [pow_succ]; ring
    have f3 : ∀ m, (2 * k + 1 + 1) * 2 ^ m = 2 * k * 2 ^ m + 2 ^ m + 2 ^ m := fun m => by ring
    have f4 : ∀ m, (2 * k + 1) * 2 ^ m = 2 * k * 2 ^ m + 2 ^ m := fun m => by ring
    have i1 := ih (2 * k) (by omega) (by rw [← e1]; exact h1) (by right; rw [f4]; rw [e3, f3] at h2'; omega)
      (fun m hm => by
        have := a3 m hm; rw [f1, f2, f3] at this; rw [f4]; have := Nat.two_pow_pos m; omega)
    have i2 := ih (2 * k + 1) (by omega) (by rw [e3, f3] at h2'; rw [f4]; omega) (by right; rw [← e3]; exact h2')
      (fun m hm => by
        have := a3 m hm; rw [f1, f2, f3] at this; rw [f4, f3]; have := Nat.two_pow_pos m; omega)
    rw [i1, i2]
    congr 1
    · exact combined_congr (fun j _ => by rw [← e1, pow_succ, Nat.mul_two])
    · refine combined_congr (fun j _ => ?_)
      congr 1
      rw [← e2, pow_succ, Nat.mul_two]; ring

/-- All nodes but the proper ancestors of `i` are right. -/
def TreeBut (op : T → T → T) (zero : T) (leaf : Nat) (b : List T) (i : Nat) : Prop :=
  ∀ k, 1 ≤ k → k < leaf → (∀ m, k ≠ i / 2 ^ (m + 1)) → b.getD k zero = op (b.getD (2 * k) zero) (b.getD (2 * k + 1) zero)

theorem getD_set (b : List T) (i : Nat) (v : T) (hi : i < b.length) (j : Nat) : (b.set i v).getD j zero = if j = i then v else b.getD j zero := by
  by_cases h : j = i
  · subst h; simp [List.getD, hi]
  · simp [List.getD, h, List.getElem?_set_ne (Ne.symm h)]

theorem getElem?_getD {b : List T} {i : Nat} (hi : i < b.length) : b[i]? = some (b.getD i zero) := by
  simp [List.getD, hi]

theorem sibling {i : Nat} (hi : 1 < i) : (i = 2 * (i / 2) ∧ i ^^^ 1 = 2 * (i / 2) + 1) ∨ (i = 2 * (i / 2) + 1 ∧ i ^^^ 1 = 2 * (i / 2)) := by
  rcases Nat.even_or_odd i with h | h
  · left; rw [Nat.xor_one_of_even h]; obtain ⟨r, hr⟩ := h; omega
  · right; rw [Nat.xor_one_of_odd h]; obtain ⟨r, hr⟩ := h; omega

theorem rbUp_spec (L : Laws op zero P) {leaf : Nat} : ∀ (i : Nat) (b : List T), 1 ≤ i → i < 2 * leaf → (1 < i → b.length % 2 = 0) → i < b.length →
    (∀ j, P (b.getD j zero)) → TreeBut op zero leaf b i →
    ∃ b', rbUp op i b = some b' ∧ b'.length = b.length ∧ (∀ j, P (b'.getD j zero)) ∧ Tree op zero leaf b' ∧ ∀ j, leaf ≤ j → b'.getD j zero = b.getD j zero := by
  intro i
  induction i using Nat.strong_induction_on with
  | _ i ih =>
    intro b h1 hleaf hlen hib hb ht
    rw [rbUp]
    by_cases hi : 1 < i
    · have hp : i / 2 < b.length := by omega
      have hsib : i ^^^ 1 < b.length := by have := hlen hi; rcases sibling hi with ⟨_, h⟩ | ⟨_, h⟩ <;> omega
      rw [if_pos hi, getElem?_getD (zero := zero) hib, getElem?_getD (zero := zero) hsib]
      simp only [if_pos hp]
      have hv : op (b.getD i zero) (b.getD (i ^^^ 1) zero) = op (b.getD (2 * (i / 2)) zero) (b.getD (2 * (i / 2) + 1) zero) := by
        rcases sibling hi with ⟨e1, e2⟩ | ⟨e1, e2⟩
        · rw [e2, ← e1]
        · rw [e2, ← e1]; exact L.comm _ _ (hb _) (hb _)
      obtain ⟨b', r1, r2, r3, r4, r5⟩ := ih (i / 2) (by omega) (b.set (i / 2) (op (b.getD i zero) (b.getD (i ^^^ 1) zero))) (by omega) (by omega)
        (fun h => by rw [List.length_set]; exact hlen hi) (by rw [List.length_set]; exact hp)
        (fun j => by rw [getD_set _ _ _ hp]; split; exact L.hop _ _ (hb _) (hb _); exact hb j)
        (by
          intro k hk1 hk2 hne
          have hne0 := hne 0
          rw [Nat.zero_add, pow_one] at hne0
          rw [getD_set _ _ _ hp, getD_set _ _ _ hp, getD_set _ _ _ hp, if_neg (by omega : ¬ 2 * k = i / 2), if_neg (by omega : ¬ 2 * k + 1 = i / 2)]
          by_cases hk : k = i / 2
          · rw [if_pos hk, hk]; exact hv
          · rw [if_neg hk]
            refine ht k hk1 hk2 (fun m => ?_)
            cases m with
            | zero => simpa using hk
            | succ m =>
              have := hne m
              rwa [Nat.div_div_eq_div_mul, ← pow_succ'] at this)
      exact ⟨b', r1, by rw [r2, List.length_set], r3, r4, fun j hj => by
        rw [r5 j hj, getD_set _ _ _ hp, if_neg (by omega)]⟩
    · rw [if_neg hi]
      refine ⟨b, rfl, rfl, hb, fun k hk1 hk2 => ht k hk1 hk2 (fun m => ?_), fun _ _ => rfl⟩
      have : i / 2 ^ (m + 1) = 0 := Nat.div_eq_of_lt (lt_of_le_of_lt (by omega : i ≤ 1) (Nat.one_lt_two_pow (by omega)))
      omega

/-- A reducer in use, holding the values `v`. -/
structure RBOK (op : T → T → T) (zero : T) (P : T → Prop) (b : RB T) (v : Nat → T) : Prop where
  pos : 1 ≤ b.length
  leaf : b.leaf = Chan.nextPowerOfTwo b.length
  len : b.buf.length = b.leaf + b.length + (b.length &&& 1)
  P : ∀ j, P (b.buf.getD j zero)
  tree : Tree op zero b.leaf b.buf
  val : ∀ j, j < b.length → b.buf.getD (b.leaf + j) zero = v j
  pad : ∀ j, b.length ≤ j → b.buf.getD (b.leaf + j) zero = zero

theorem rbNew_ok (L : Laws op zero P) {n : Nat} (hn : 1 ≤ n) : RBOK op zero P (rbNew zero n) (fun _ => zero) := by
  have h0 : ∀ m j, (List.replicate m zero).getD j zero = zero := by
    intro m j
    simp only [List.getD, List.getElem?_replicate]
    split <;> rfl
  refine ⟨hn, rfl, by simp [rbNew], fun j => ?_, fun k _ _ => ?_, fun j _ => h0 _ _, fun j _ => h0 _ _⟩
  · rw [rbNew, h0]; exact L.hzero
  · simp only [rbNew, h0]; exact (L.left _ L.hzero).symm

theorem RBOK.leaf_pow {b : RB T} {v : Nat → T} (h : RBOK op zero P b v) : ∃ k, b.leaf = 2 ^ k ∧ b.length ≤ b.leaf := by
  obtain ⟨k, hk⟩ := Chan.isPow2 b.length
  exact ⟨k, by rw [h.leaf, hk], by rw [h.leaf]; exact Chan.le_nextPowerOfTwo _⟩

theorem RBOK.even {b : RB T} {v : Nat → T} (h : RBOK op zero P b v) (h1 : 1 < b.leaf) : b.buf.length % 2 = 0 := by
  obtain ⟨k, hk, _⟩ := h.leaf_pow
  have hl := h.len
  rw [Nat.and_one_is_mod] at hl
  have : b.leaf % 2 = 0 := by
    rw [hk] at h1 ⊢
    cases k with
    | zero => simp at h1
    | succ k => simp [pow_succ]
  omega

theorem rbSet_ok (L : Laws op zero P) {b : RB T} {v : Nat → T} (h : RBOK op zero P b v) {index : Nat} (hi : index < b.length) {x : T} (hx : P x) :
    ∃ b', rbSet op b index x = some b' ∧ b'.length = b.length ∧ RBOK op zero P b' (fun j => if j = index then x else v j) := by
  obtain ⟨k, hk, hle⟩ := h.leaf_pow
  have hlen := h.len
  have hib : b.leaf + index < b.buf.length := by omega
  have hpos := h.pos
  obtain ⟨b', r1, r2, r3, r4, r5⟩ := rbUp_spec (P := P) L (leaf := b.leaf) (b.leaf + index) (b.buf.set (b.leaf + index) x) (by omega) (by omega)
    (fun h1 => by
      rw [List.length_set]
      exact h.even (by omega))
    (by rw [List.length_set]; exact hib)
    (fun j => by rw [getD_set _ _ _ hib]; split; exact hx; exact h.P j)
    (by
      intro k hk1 hk2 hne
      have := hne 0
      rw [Nat.zero_add, pow_one] at this
      rw [getD_set _ _ _ hib, getD_set _ _ _ hib, getD_set _ _ _ hib, if_neg (by omega), if_neg (by omega), if_neg (by omega)]
      exact h.tree k hk1 hk2)
  refine ⟨{ b with buf := b' }, ?_, rfl, h.pos, h.leaf, ?_, r3, r4, fun j hj => ?_, fun j hj => ?_⟩
  · rw [rbSet, if_pos hib, r1]; rfl
  · show b'.length = _
    rw [r2, List.length_set, hlen]
  · show b'.getD (b.leaf + j) zero = _
    rw [r5 _ (by omega), getD_set _ _ _ hib]
    by_cases hj2 : j = index
    · rw [if_pos (by omega), if_pos hj2]
    · rw [if_neg (by omega), if_neg hj2]; exact h.val j hj
  · show b'.getD (b.leaf + j) zero = _
    have hj : b.length ≤ j := hj
    rw [r5 _ (by omega), getD_set _ _ _ hib, if_neg (by omega)]
    exact h.pad j hj

theorem RBOK.total (L : Laws op zero P) {b : RB T} {v : Nat → T} (h : RBOK op zero P b v) : rbTotal b = some (combined op zero b.length v) := by
  obtain ⟨k, hk, hle⟩ := h.leaf_pow
  have hlen := h.len
  have hpos := h.pos
  have h1 : 1 < b.buf.length := by omega
  rw [rbTotal, getElem?_getD (zero := zero) h1]
  congr 1
  have := tree_combined L h.P h.tree k 1 (le_refl _) (by rw [hk]; have := Nat.two_pow_pos k; omega)
    (by right; rw [hk]; omega) (fun m hm => by
      have hm2 : 2 ^ (m + 1) ≤ 2 ^ k := Nat.pow_le_pow_right (by omega) hm
      have := Nat.two_pow_pos m
      rw [pow_succ] at hm2
      rw [hk]; omega)
  rw [this, Nat.one_mul, ← hk, show b.leaf = b.length + (b.leaf - b.length) by omega, combined_add L (fun j => h.P _)]
  rw [combined_zeros L (m := b.leaf - b.length), L.right _ (combined_P L (fun j => h.P _))]
  · refine combined_congr (fun j hj => ?_)
    rw [show b.length + (b.leaf - b.length) + j = b.leaf + j by omega]
    exact h.val j hj
  · intro j _
    rw [show b.length + (b.leaf - b.length) + (b.length + j) = b.leaf + (b.length + j) by omega]
    exact h.pad _ (by omega)

end

/-- **C46, reducer**: after any sequence of stores, the reducer holds the combination of the values stored last, and no store is out of bounds.
The combination is commutative and associative with zero as its neutral element on the values stored. -/
theorem C46_reduce {op : T → T → T} {zero : T} {P : T → Prop} (L : Laws op zero P) {n : Nat} (hn : 1 ≤ n) (sets : List (Nat × T))
    (hs : ∀ s ∈ sets, s.1 < n ∧ P s.2) :
    ((rbSets op (rbNew zero n) sets).bind rbTotal) = some (combined op zero n (latest zero sets)) := by
  have key : ∀ (sets : List (Nat × T)) (b : RB T) (v : Nat → T), (∀ s ∈ sets, s.1 < n ∧ P s.2) → b.length = n → RBOK op zero P b v →
      ∃ b', rbSets op b sets = some b' ∧ b'.length = n ∧
        RBOK op zero P b' (fun j => sets.foldl (fun acc s => if s.1 = j then s.2 else acc) (v j)) := by
    intro sets
    induction sets with
    | nil => intro b v _ hb h; exact ⟨b, rfl, hb, h⟩
    | cons s ss ih =>
      intro b v hs hb h
      obtain ⟨h1, h2⟩ := hs s (List.mem_cons_self)
      obtain ⟨b', r1, r2, r3⟩ := rbSet_ok L h (hb ▸ h1) h2
      obtain ⟨b'', q1, q2, q3⟩ := ih b' _ (fun t ht => hs t (List.mem_cons_of_mem _ ht)) (r2.trans hb) r3
      refine ⟨b'', by rw [rbSets, r1]; exact q1, q2, ?_⟩
      convert q3 using 2 with j
      simp only [List.foldl_cons]
      congr 1
      by_cases hj : s.1 = j
      · rw [if_pos hj, if_pos hj.symm]
      · rw [if_neg hj, if_neg (Ne.symm hj)]
  obtain ⟨b', r1, r2, r3⟩ := key sets (rbNew zero n) _ hs rfl (rbNew_ok L hn)
  rw [r1, Option.bind_some, r3.total L, r2]
  rfl

/-- Maximum of nonnegative numbers, as used by the limiter. -/
theorem laws_max : Laws (max : ℝ → ℝ → ℝ) 0 (fun x => 0 ≤ x) :=
  ⟨le_refl _, fun _ _ h _ => h.trans (le_max_left _ _), fun a b _ _ => max_comm a b, fun a b c _ _ _ => max_assoc a b c, fun a h => max_eq_right h⟩

/-- Sums, with three slots and stores that overwrite each other. -/
example : ((rbSets (· + ·) (rbNew 0 3) [(0, 5), (2, 7), (0, 1), (1, 10)]).bind rbTotal) = some (18 : Nat) := by
  rw [C46_reduce (P := fun _ => True) ⟨trivial, fun _ _ _ _ => trivial, fun _ _ _ _ => Nat.add_comm _ _, fun _ _ _ _ _ _ => Nat.add_assoc _ _ _,
    fun _ _ => Nat.zero_add _⟩ (by decide) _ (by decide)]
  rfl

end Fundsp.Dyn
