import Verif.Net.Props
import Mathlib.Data.Fintype.Pigeonhole
import Mathlib.Logic.Function.Iterate

/-! # Evaluation order: lemmas and property C02 -/

namespace Fundsp.Net

/-! ## Specification -/

/-- Node `i` directly reads node `j`. -/
def Reads (feeds : Nat → List Nat) (i j : Nat) : Prop := j ∈ feeds i

/-- There is a directed cycle among nodes `0..n`. -/
def HasCycle (n : Nat) (feeds : Nat → List Nat) : Prop := ∃ i, i < n ∧ Relation.TransGen (Reads feeds) i i

/-- Every node appears after all the nodes that it reads: whenever the order splits at a node, what it reads is
in the first part. -/
def Topological (feeds : Nat → List Nat) (order : List Nat) : Prop :=
  ∀ a i b, order = a ++ i :: b → ∀ j ∈ feeds i, j ∈ a

/-! ## Lemmas -/

theorem filter_perm {l : List Nat} (hn : l.Nodup) {p : Nat → Bool} {j : Nat} (hj : j ∈ l) (hp : p j = true) :
    (l.filter p).Perm (j :: l.filter (fun k => !(k == j) && p k)) := by
  induction l with
  | nil => cases hj
  | cons a l ih =>
    rw [List.nodup_cons] at hn
    by_cases ha : a = j
    · subst ha
      have : l.filter (fun k => !(k == a) && p k) = l.filter p := by
        apply List.filter_congr
        intro x hx
        have : x ≠ a := by rintro rfl; exact hn.1 hx
        simp [this]
      simp [hp, this]
    · have hj' : j ∈ l := by
        rcases List.mem_cons.1 hj with h | h
        · exact absurd h.symm ha
        · exact h
      have hb : (a == j) = false := by simpa using ha
      by_cases hpa : p a = true
      · simp only [List.filter_cons, hpa, if_true, hb, Bool.not_false, Bool.true_and]
        exact (List.Perm.cons a (ih hn.2 hj')).trans (List.Perm.swap _ _ _)
      · have hpa' : p a = false := by simpa using hpa
        simp only [List.filter_cons, hpa', Bool.and_false, Bool.false_eq_true, if_false]
        exact ih hn.2 hj'

/-- Unvisited edges of nodes that have not been ordered. -/
def remEdges (n : Nat) (feeds : Nat → List Nat) (ord : Nat → Bool) : List Nat :=
  ((List.range n).filter (fun k => !ord k)).flatMap feeds

theorem remEdges_perm {n : Nat} {feeds : Nat → List Nat} {ord : Nat → Bool} {j : Nat} (hj : j < n)
    (ho : ord j = false) :
    (remEdges n feeds ord).Perm (feeds j ++ remEdges n feeds (fun k => k == j || ord k)) := by
  have h := filter_perm (List.nodup_range (n := n)) (p := fun k => !ord k) (List.mem_range.2 hj) (by simp [ho])
  have h2 : (fun k => !(k == j) && !ord k) = (fun k => !(k == j || ord k)) := by
    funext k; simp
  simp only [h2] at h
  unfold remEdges
  have := h.flatMap_right feeds
  simpa [List.flatMap_cons] using this

/-- Invariant of the ordering algorithm with `P` the edges still to be visited. -/
structure OrdInv (n : Nat) (feeds : Nat → List Nat) (P : List Nat) (st : OrdSt) : Prop where
  mem : ∀ k, st.ordered k = true ↔ k ∈ st.order
  nodup : st.order.Nodup
  lt : ∀ k ∈ st.order, k < n
  count : ∀ j, st.unplugged j = (P ++ remEdges n feeds st.ordered).count j
  zero : ∀ j, st.ordered j = true → st.unplugged j = 0
  pend : ∀ j ∈ P, j < n
  topo : ∀ a j b, st.order = a ++ j :: b → ∀ i, i < n → j ∈ feeds i → i ∈ a

theorem append_split {a b : List Nat} {x j : Nat} {l : List Nat} (h : l ++ [x] = a ++ j :: b) :
    (b = [] ∧ j = x ∧ a = l) ∨ ∃ b', b = b' ++ [x] ∧ l = a ++ j :: b' := by
  rcases List.eq_nil_or_concat b with rfl | ⟨b', y, rfl⟩
  · have := List.append_inj' (s₁ := l) (s₂ := a) (t₁ := [x]) (t₂ := [j]) (by simpa using h) rfl
    exact Or.inl ⟨rfl, by simpa using this.2.symm, this.1.symm⟩
  · have h' : l ++ [x] = (a ++ j :: b') ++ [y] := by simpa using h
    have := List.append_inj' h' rfl
    refine Or.inr ⟨b', ?_, this.1⟩
    have h2 : x = y := by simpa using this.2
    simp [h2]

/-- Ordering a node all of whose readers are ordered. -/
theorem OrdInv.place {n : Nat} {feeds : Nat → List Nat} {P : List Nat} {st : OrdSt} {un : Nat → Nat}
    (hf : ∀ i, i < n → ∀ j ∈ feeds i, j < n)
    (hmem : ∀ k, st.ordered k = true ↔ k ∈ st.order) (hnodup : st.order.Nodup) (hlt : ∀ k ∈ st.order, k < n)
    (hcount : ∀ j, un j = (P ++ remEdges n feeds st.ordered).count j)
    (hzero : ∀ j, st.ordered j = true → un j = 0) (hpend : ∀ j ∈ P, j < n)
    (htopo : ∀ a j b, st.order = a ++ j :: b → ∀ i, i < n → j ∈ feeds i → i ∈ a)
    {j : Nat} (hj : j < n) (ho : st.ordered j = false) (hz : un j = 0) :
    OrdInv n feeds (feeds j ++ P)
      { unplugged := un, ordered := fun k => k == j || st.ordered k, order := st.order ++ [j] } := by
  have hnot : j ∉ st.order := by intro h; rw [(hmem j).2 h] at ho; cases ho
  refine ⟨?_, ?_, ?_, ?_, ?_, ?_, ?_⟩
  · intro k; simp [hmem, or_comm]
  · rw [List.nodup_append]
    refine ⟨hnodup, by simp, ?_⟩
    intro a ha b hb
    simp at hb; subst hb
    rintro rfl; exact hnot ha
  · intro k hk
    simp at hk
    rcases hk with hk | rfl
    · exact hlt k hk
    · exact hj
  · intro k
    show un k = _
    rw [hcount]
    have hp := remEdges_perm (feeds := feeds) hj ho
    have : (P ++ remEdges n feeds st.ordered).Perm (feeds j ++ P ++ remEdges n feeds (fun k => k == j || st.ordered k)) := by
      refine (List.Perm.append_left P hp).trans ?_
      rw [← List.append_assoc]
      exact List.Perm.append_right _ List.perm_append_comm
    exact this.count_eq k
  · intro k hk
    simp only [Bool.or_eq_true, beq_iff_eq] at hk
    rcases hk with rfl | hk
    · exact hz
    · exact hzero k hk
  · intro k hk
    rcases List.mem_append.1 hk with hk | hk
    · exact hf j hj k hk
    · exact hpend k hk
  · intro a x b hab i hi hx
    rcases append_split hab with ⟨_, rfl, rfl⟩ | ⟨b', _, hb⟩
    · rw [← hmem]
      cases hoi : st.ordered i with
      | true => rfl
      | false =>
        exfalso
        have hc := hcount x
        rw [hz] at hc
        have : x ∈ remEdges n feeds st.ordered := by
          unfold remEdges
          rw [List.mem_flatMap]
          exact ⟨i, by simp [hi, hoi], hx⟩
        have h0 : (P ++ remEdges n feeds st.ordered).count x = 0 := hc.symm
        rw [List.count_eq_zero] at h0
        exact h0 (List.mem_append.2 (Or.inr this))
    · exact htopo a x b' hb i hi hx

/-- Nodes in `done` are ordered or still have unvisited readers. -/
def DoneInv (done : Nat → Prop) (st : OrdSt) : Prop := ∀ k, done k → st.ordered k = true ∨ 0 < st.unplugged k

theorem propagate_inv {n : Nat} {feeds : Nat → List Nat} (hf : ∀ i, i < n → ∀ j ∈ feeds i, j < n)
    (done : Nat → Prop) (fuel : Nat) (P : List Nat) (st : OrdSt)
    (h : OrdInv n feeds P st) (hd : DoneInv done st) (hfuel : P.length + (remEdges n feeds st.ordered).length ≤ fuel) :
    OrdInv n feeds [] (propagate feeds fuel P st) ∧ DoneInv done (propagate feeds fuel P st) ∧
    (∀ k, st.ordered k = true → (propagate feeds fuel P st).ordered k = true) := by
  induction fuel generalizing P st with
  | zero =>
    have : P = [] := List.eq_nil_of_length_eq_zero (by omega)
    subst this
    simp only [propagate]
    exact ⟨h, hd, fun _ h => h⟩
  | succ fuel ih =>
    cases P with
    | nil => simp only [propagate]; exact ⟨h, hd, fun _ h => h⟩
    | cons j rest =>
      have hj : j < n := h.pend j (by simp)
      have hpos : 0 < st.unplugged j := by
        rw [h.count]; simp
      have hoj : st.ordered j = false := by
        cases hx : st.ordered j with
        | false => rfl
        | true => have := h.zero j hx; omega
      have hcount' : ∀ k, (if k = j then st.unplugged j - 1 else st.unplugged k) =
          (rest ++ remEdges n feeds st.ordered).count k := by
        intro k
        have := h.count k
        by_cases hk : k = j
        · subst hk; rw [if_pos rfl, this]; simp
        · rw [if_neg hk, this]
          simp [Ne.symm hk]
      have hzero' : ∀ k, st.ordered k = true → (if k = j then st.unplugged j - 1 else st.unplugged k) = 0 := by
        intro k hk
        by_cases hkj : k = j
        · subst hkj; rw [hoj] at hk; cases hk
        · rw [if_neg hkj]; exact h.zero k hk
      simp only [propagate, if_true]
      split
      · rename_i hz
        have hplace := OrdInv.place (P := rest) (un := fun k => if k = j then st.unplugged j - 1 else st.unplugged k)
          hf h.mem h.nodup h.lt hcount' hzero' (fun k hk => h.pend k (by simp [hk])) h.topo hj hoj (by simpa using hz)
        have hlen : (feeds j ++ rest).length + (remEdges n feeds (fun k => k == j || st.ordered k)).length ≤ fuel := by
          have := (remEdges_perm (feeds := feeds) hj hoj).length_eq
          simp only [List.length_append, List.length_cons] at *
          omega
        obtain ⟨r1, r2, r3⟩ := ih _ _ hplace (by
          intro k hk
          by_cases hkj : k = j
          · left; simp [hkj]
          · rcases hd k hk with h1 | h1
            · left; simp [h1]
            · right; simp [hkj, h1]) hlen
        exact ⟨r1, r2, fun k hk => r3 k (by simp [hk])⟩
      · rename_i hz
        have hinv : OrdInv n feeds rest { st with unplugged := fun k => if k = j then st.unplugged j - 1 else st.unplugged k } :=
          ⟨h.mem, h.nodup, h.lt, hcount', hzero', fun k hk => h.pend k (by simp [hk]), h.topo⟩
        obtain ⟨r1, r2, r3⟩ := ih _ _ hinv (by
          intro k hk
          by_cases hkj : k = j
          · right; simp only [hkj, if_true]; omega
          · rcases hd k hk with h1 | h1
            · left; exact h1
            · right; simp [hkj, h1]) (by simp at hfuel ⊢; omega)
        exact ⟨r1, r2, r3⟩

theorem orderLoop_inv {n : Nat} {feeds : Nat → List Nat} (hf : ∀ i, i < n → ∀ j ∈ feeds i, j < n)
    (is : List Nat) (his : ∀ i ∈ is, i < n) (fuel : Nat) (done : Nat → Prop) (st : OrdSt)
    (hfuel : ((List.range n).flatMap feeds).length ≤ fuel)
    (h : OrdInv n feeds [] st) (hd : DoneInv done st) :
    OrdInv n feeds [] (orderLoop feeds fuel is st) ∧
    DoneInv (fun k => done k ∨ k ∈ is) (orderLoop feeds fuel is st) := by
  induction is generalizing st done with
  | nil => exact ⟨h, by simpa [orderLoop] using hd⟩
  | cons i is ih =>
    have hi := his i (by simp)
    have his' : ∀ k ∈ is, k < n := fun k hk => his k (by simp [hk])
    have conv : ∀ s, DoneInv (fun k => (done k ∨ k = i) ∨ k ∈ is) s → DoneInv (fun k => done k ∨ k ∈ i :: is) s := by
      intro s hs k hk
      apply hs k
      rcases hk with hk | hk
      · exact Or.inl (Or.inl hk)
      · rcases List.mem_cons.1 hk with rfl | hk
        · exact Or.inl (Or.inr rfl)
        · exact Or.inr hk
    simp only [orderLoop]
    split
    · rename_i ho
      obtain ⟨r1, r2⟩ := ih his' (fun k => done k ∨ k = i) st h (by
        intro k hk
        rcases hk with hk | rfl
        · exact hd k hk
        · exact Or.inl ho)
      exact ⟨r1, conv _ r2⟩
    · rename_i ho
      have ho' : st.ordered i = false := by simpa using ho
      split
      · rename_i hz
        have hplace := OrdInv.place (P := []) (un := st.unplugged) hf h.mem h.nodup h.lt h.count h.zero (by simp) h.topo hi ho' hz
        rw [List.append_nil] at hplace
        have hle : (feeds i).length + (remEdges n feeds (fun k => k == i || st.ordered k)).length ≤ fuel := by
          have h1 := (remEdges_perm (feeds := feeds) hi ho').length_eq
          rw [List.length_append] at h1
          rw [← h1]
          refine Nat.le_trans ?_ hfuel
          exact ((List.filter_sublist (l := List.range n) (p := fun k => !st.ordered k)).flatMap feeds).length_le
        obtain ⟨p1, p2, p3⟩ := propagate_inv hf (fun k => done k ∨ k = i) fuel (feeds i) _ hplace (by
          intro k hk
          rcases hk with hk | rfl
          · rcases hd k hk with h1 | h1
            · left; simp [h1]
            · right; exact h1
          · left; simp) hle
        obtain ⟨r1, r2⟩ := ih his' (fun k => done k ∨ k = i) _ p1 p2
        exact ⟨r1, conv _ r2⟩
      · rename_i hz
        obtain ⟨r1, r2⟩ := ih his' (fun k => done k ∨ k = i) st h (by
          intro k hk
          rcases hk with hk | rfl
          · exact hd k hk
          · right; omega)
        exact ⟨r1, conv _ r2⟩

/-- If every node of a nonempty set of nodes below `n` has a reader in the set, there is a cycle. -/
theorem cycle_of_readers {n : Nat} {feeds : Nat → List Nat} (A : Nat → Prop) (hlt : ∀ k, A k → k < n)
    (hr : ∀ k, A k → ∃ i, A i ∧ k ∈ feeds i) (x : Nat) (hx : A x) : HasCycle n feeds := by
  classical
  let f : {k // A k} → {k // A k} := fun k => ⟨(hr k.1 k.2).choose, (hr k.1 k.2).choose_spec.1⟩
  have hf : ∀ k : {k // A k}, Reads feeds (f k).1 k.1 := fun k => (hr k.1 k.2).choose_spec.2
  let g : Nat → Fin n := fun m => ⟨(f^[m] ⟨x, hx⟩).1, hlt _ (f^[m] ⟨x, hx⟩).2⟩
  obtain ⟨a, b, hab, hg⟩ := Finite.exists_ne_map_eq_of_infinite g
  have chain : ∀ d a, Relation.TransGen (Reads feeds) (f^[a + (d + 1)] ⟨x, hx⟩).1 (f^[a] ⟨x, hx⟩).1 := by
    intro d
    induction d with
    | zero =>
      intro a
      refine Relation.TransGen.single ?_
      rw [show a + (0 + 1) = a + 1 by omega, Function.iterate_succ_apply']
      exact hf _
    | succ d ih =>
      intro a
      have h1 := ih a
      have h2 := hf (f^[a + (d + 1)] ⟨x, hx⟩)
      rw [show a + (d + 1 + 1) = (a + (d + 1)) + 1 by omega, Function.iterate_succ_apply']
      exact Relation.TransGen.trans (Relation.TransGen.single h2) h1
  have hval : (f^[a] ⟨x, hx⟩).1 = (f^[b] ⟨x, hx⟩).1 := by
    have := congrArg Fin.val hg; exact this
  rcases Nat.lt_or_gt_of_ne hab with h | h
  · obtain ⟨d, rfl⟩ : ∃ d, b = a + (d + 1) := ⟨b - a - 1, by omega⟩
    refine ⟨_, hlt _ (f^[a] ⟨x, hx⟩).2, ?_⟩
    have := chain d a
    rw [← hval] at this; exact this
  · obtain ⟨d, rfl⟩ : ∃ d, a = b + (d + 1) := ⟨a - b - 1, by omega⟩
    refine ⟨_, hlt _ (f^[b] ⟨x, hx⟩).2, ?_⟩
    have := chain d b
    rw [hval] at this; exact this

/-- A topological order of all nodes rules out cycles. -/
theorem no_cycle_of_topological {n : Nat} {feeds : Nat → List Nat} {order : List Nat}
    (hperm : order.Perm (List.range n)) (ht : Topological feeds order) : ¬ HasCycle n feeds := by
  have hnd : order.Nodup := hperm.nodup_iff.2 List.nodup_range
  -- what a node reads, directly or indirectly, comes strictly before it
  have key : ∀ i j, Relation.TransGen (Reads feeds) i j → ∀ a b, order = a ++ i :: b → j ∈ a := by
    intro i j h
    induction h with
    | single h => intro a b hab; exact ht a i b hab _ h
    | tail _ h ih =>
      intro a b hab
      have hm := ih a b hab
      obtain ⟨a1, a2, rfl⟩ := List.append_of_mem hm
      have := ht a1 _ (a2 ++ i :: b) (by rw [hab]; simp) _ h
      exact List.mem_append.2 (Or.inl this)
  rintro ⟨i, hi, hc⟩
  have hmem : i ∈ order := hperm.mem_iff.2 (List.mem_range.2 hi)
  obtain ⟨a, b, hab⟩ := List.append_of_mem hmem
  have := key i i hc a b hab
  rw [hab, List.nodup_append] at hnd
  exact hnd.2.2 i this i (by simp) rfl

/-- Correctness of the ordering algorithm. -/
theorem determineOrderIn_spec (n : Nat) (feeds : Nat → List Nat) (hf : ∀ i, i < n → ∀ j ∈ feeds i, j < n) :
    (determineOrderIn n feeds).1.Perm (List.range n) ∧
    ((determineOrderIn n feeds).2 = true → Topological feeds (determineOrderIn n feeds).1) ∧
    ((determineOrderIn n feeds).2 = false → HasCycle n feeds) := by
  have h0 : OrdInv n feeds [] { unplugged := fun j => ((List.range n).flatMap feeds).count j, ordered := fun _ => false, order := [] } := by
    refine ⟨by simp, by simp, by simp, ?_, by simp, by simp, by simp⟩
    intro j
    simp [remEdges]
  obtain ⟨inv, dn⟩ := orderLoop_inv hf (List.range n) (fun i hi => List.mem_range.1 hi)
    ((List.range n).flatMap feeds).length (fun _ => False) _ (Nat.le_refl _) h0 (by intro k hk; cases hk)
  simp only [determineOrderIn]
  generalize orderLoop feeds ((List.range n).flatMap feeds).length (List.range n) _ = st at inv dn
  have hsub : st.order.Perm ((List.range n).filter (fun k => st.ordered k)) := by
    rw [List.perm_ext_iff_of_nodup inv.nodup (List.nodup_range.filter _)]
    intro k
    simp only [List.mem_filter, List.mem_range]
    constructor
    · intro hk; exact ⟨inv.lt k hk, (inv.mem k).2 hk⟩
    · intro hk; exact (inv.mem k).1 hk.2
  split
  · rename_i hlt
    refine ⟨?_, by simp, ?_⟩
    · have := List.filter_append_perm (fun k => st.ordered k) (List.range n)
      exact (List.reverse_perm _).trans ((hsub.append_right _).trans this)
    · intro _
      -- a node is missing
      have : ∃ x, x < n ∧ st.ordered x = false := by
        apply Classical.byContradiction
        intro hc
        have hall : ∀ k ∈ List.range n, st.ordered k = true := by
          intro k hk
          cases hx : st.ordered k with
          | true => rfl
          | false => exact absurd ⟨k, List.mem_range.1 hk, hx⟩ hc
        have h1 := hsub.length_eq
        rw [List.filter_eq_self.2 hall, List.length_range] at h1
        omega
      obtain ⟨x, hx, hxo⟩ := this
      refine cycle_of_readers (fun k => k < n ∧ st.ordered k = false) (fun k hk => hk.1) ?_ x ⟨hx, hxo⟩
      rintro k ⟨hk, hko⟩
      have hpos : 0 < st.unplugged k := by
        rcases dn k (Or.inr (List.mem_range.2 hk)) with h | h
        · rw [hko] at h; cases h
        · exact h
      rw [inv.count, List.nil_append, List.count_pos_iff] at hpos
      unfold remEdges at hpos
      rw [List.mem_flatMap] at hpos
      obtain ⟨i, hi, hki⟩ := hpos
      simp at hi
      exact ⟨i, ⟨hi.1, hi.2⟩, hki⟩
  · rename_i hlt
    have hlen := hsub.length_eq
    have hfl := List.length_filter_le (fun k => st.ordered k) (List.range n)
    rw [List.length_range] at hfl
    have hall : ∀ k ∈ List.range n, st.ordered k = true := by
      have heq : ((List.range n).filter (fun k => st.ordered k)).length = (List.range n).length := by
        rw [List.length_range]; omega
      exact List.length_filter_eq_length_iff.1 heq
    refine ⟨?_, ?_, by simp⟩
    · rw [List.filter_eq_self.2 hall] at hsub
      exact (List.reverse_perm _).trans hsub
    · intro _ a i b hab j hj
      have h1 : st.order = b.reverse ++ i :: a.reverse := by
        have := congrArg List.reverse hab
        simpa using this
      have hi : i < n := inv.lt i (by rw [h1]; simp)
      have hjn := hf i hi j hj
      have hjo : j ∈ st.order := (inv.mem j).1 (hall j (List.mem_range.2 hjn))
      obtain ⟨c, d, hcd⟩ := List.append_of_mem hjo
      have hic := inv.topo c j d hcd i hi hj
      -- i occurs before j in `st.order`, hence after it in the result
      obtain ⟨c1, c2, rfl⟩ := List.append_of_mem hic
      have h2 : b.reverse ++ i :: a.reverse = c1 ++ i :: (c2 ++ j :: d) := by
        rw [← h1, hcd]; simp
      have hnd := inv.nodup
      have hb : b.reverse = c1 := by
        rw [h1] at hnd
        have hnd2 := hnd
        rw [h2] at hnd2
        rcases List.append_eq_append_iff.1 h2 with ⟨e, he1, he2⟩ | ⟨e, he1, he2⟩
        · cases e with
          | nil => simpa using he1.symm
          | cons x e =>
            simp at he2
            rw [he1] at hnd2
            rw [← he2.1] at hnd2
            simp [List.nodup_append] at hnd2
        · cases e with
          | nil => simpa using he1
          | cons x e =>
            simp at he2
            rw [he1, ← he2.1] at hnd
            simp [List.nodup_append] at hnd
      rw [hb] at h2
      have h3 : a.reverse = c2 ++ j :: d := by
        have := List.append_cancel_left h2
        simpa using this
      have : j ∈ a.reverse := by rw [h3]; simp
      exact List.mem_reverse.1 this

/-! ## C02 -/

variable {U α : Type}

/-- **C02** for the ordering algorithm on any finite graph. -/
theorem C02_order (n : Nat) (feeds : Nat → List Nat) (hf : ∀ i, i < n → ∀ j ∈ feeds i, j < n) :
    (determineOrderIn n feeds).1.Perm (List.range n) ∧
    (¬ HasCycle n feeds → Topological feeds (determineOrderIn n feeds).1) ∧
    ((determineOrderIn n feeds).2 = false ↔ HasCycle n feeds) := by
  obtain ⟨h1, h2, h3⟩ := determineOrderIn_spec n feeds hf
  refine ⟨h1, ?_, h3, ?_⟩
  · intro hc
    cases hx : (determineOrderIn n feeds).2 with
    | true => exact h2 hx
    | false => exact absurd (h3 hx) hc
  · intro hc
    cases hx : (determineOrderIn n feeds).2 with
    | false => rfl
    | true => exact absurd hc (no_cycle_of_topological h1 (h2 hx))

/-- The wires of a net between nodes: node `i` has an input channel whose source is an output of node `j`. -/
def Wire (net : Net U α) (i j : Nat) : Prop :=
  ∃ (v : Vertex U α) (c : Nat) (e : Edge) (p : Nat),
    net.vertex[i]? = some v ∧ v.source[c]? = some e ∧ e.source = .loc j p

/-- The wiring has a directed cycle. -/
def Cyclic (net : Net U α) : Prop := ∃ i, Relation.TransGen (Wire net) i i

theorem mem_feedsOf {S : Units U α} {net : Net U α} (h : Valid S net) (i j : Nat) :
    j ∈ feedsOf net.vertex i ↔ Wire net i j := by
  unfold feedsOf Wire
  cases hv : net.vertex[i]? with
  | none => simp
  | some v =>
    simp only [Option.map_some, Option.getD_some, Vertex.feeds]
    have htake : v.source.take v.ins = v.source := by
      rw [← (h.arity i v hv).1, List.take_length]
    rw [htake, List.mem_filterMap]
    constructor
    · rintro ⟨e, he, hj⟩
      obtain ⟨c, hc⟩ := List.getElem?_of_mem he
      cases hs : e.source with
      | loc k p =>
        rw [hs] at hj; simp at hj; subst hj
        exact ⟨v, c, e, p, rfl, hc, hs⟩
      | _ => rw [hs] at hj; simp at hj
    · rintro ⟨w, c, e, p, hw, hc, hs⟩
      cases hw
      exact ⟨e, List.mem_of_getElem? hc, by rw [hs]⟩

theorem feedsOf_lt {S : Units U α} {net : Net U α} (h : Valid S net) (i : Nat) (j : Nat)
    (hj : j ∈ feedsOf net.vertex i) : j < net.vertex.length := by
  obtain ⟨v, c, e, p, hv, hc, hs⟩ := (mem_feedsOf h i j).1 hj
  have := (h.edge i v c e hv hc).2
  rw [hs] at this
  obtain ⟨w, hw, _⟩ := this
  exact (List.getElem?_eq_some_iff.1 hw).1

theorem transGen_congr {r s : Nat → Nat → Prop} (h : ∀ a b, r a b ↔ s a b) (a b : Nat) :
    Relation.TransGen r a b ↔ Relation.TransGen s a b := by
  have : r = s := by funext a b; exact propext (h a b)
  rw [this]

theorem hasCycle_iff {S : Units U α} {net : Net U α} (h : Valid S net) :
    HasCycle net.vertex.length (feedsOf net.vertex) ↔ Cyclic net := by
  have hr : ∀ i j, Reads (feedsOf net.vertex) i j ↔ Wire net i j := fun i j => mem_feedsOf h i j
  constructor
  · rintro ⟨i, _, hc⟩
    exact ⟨i, (transGen_congr hr i i).1 hc⟩
  · rintro ⟨i, hc⟩
    have hc' := (transGen_congr hr i i).2 hc
    refine ⟨i, ?_, hc'⟩
    cases hc' with
    | single h1 => exact feedsOf_lt h _ _ h1
    | tail _ h1 => exact feedsOf_lt h _ _ h1

theorem feedsOf_sameWiring {a b : Net U α} (hs : SameWiring a b) (i : Nat) :
    feedsOf b.vertex i = feedsOf a.vertex i := by
  unfold feedsOf
  cases hv : a.vertex[i]? with
  | none =>
    have : b.vertex[i]? = none := by
      rw [List.getElem?_eq_none_iff] at hv ⊢
      rw [hs.len]; exact hv
    simp [this]
  | some v =>
    have hi := (List.getElem?_eq_some_iff.1 hv).1
    have hw := List.getElem?_eq_getElem (show i < b.vertex.length by rw [hs.len]; exact hi)
    rw [hw]
    have := hs.node i v _ hv hw
    simp [Vertex.feeds, this.2.1, this.2.2.2]

theorem wire_sameWiring {a b : Net U α} (hs : SameWiring a b) (i j : Nat) : Wire b i j ↔ Wire a i j := by
  constructor
  · rintro ⟨w, c, e, p, hw, hc, he⟩
    obtain ⟨v, hv⟩ := hs.find hw
    rw [(hs.node i v w hv hw).2.2.2] at hc
    exact ⟨v, c, e, p, hv, hc, he⟩
  · rintro ⟨v, c, e, p, hv, hc, he⟩
    have hi := (List.getElem?_eq_some_iff.1 hv).1
    have hw := List.getElem?_eq_getElem (show i < b.vertex.length by rw [hs.len]; exact hi)
    rw [← (hs.node i v _ hv hw).2.2.2] at hc
    exact ⟨_, c, e, p, hw, hc, he⟩

/-- **C02** for nets: on every well-wired net (any net of C01), the evaluation order lists every node exactly once;
`error()` reports a cycle exactly when the wiring has a directed cycle; and if it has none, every node comes after
all nodes that feed it. -/
theorem C02_net_order {S : Units U α} (hS : S.Lawful) (seed : Nat → Nat) (h0 : Nat) {n : NodeId} {net : Net U α}
    (h : WF S n net) :
    ∃ order, (determineOrder S seed h0 net).order = some order ∧ order.Perm (List.range (size net)) ∧
      ((determineOrder S seed h0 net).cycleError = true ↔ Cyclic net) ∧
      (¬ Cyclic net → ∀ a i b, order = a ++ i :: b → ∀ j, Wire net i j → j ∈ a) := by
  have hw := wf_determineOrder hS seed h0 h
  obtain ⟨hs, _⟩ := determineOrder_spec hS seed h0 net
  have heq : determineOrderIn (determineOrder S seed h0 net).vertex.length (feedsOf (determineOrder S seed h0 net).vertex) =
      determineOrderIn net.vertex.length (feedsOf net.vertex) := by
    rw [hs.len]
    congr 1
    funext i; exact feedsOf_sameWiring hs i
  obtain ⟨c1, c2, c3⟩ := C02_order net.vertex.length (feedsOf net.vertex) (fun i _ j hj => feedsOf_lt h.valid i j hj)
  rw [hasCycle_iff h.valid] at c2 c3
  refine ⟨(determineOrderIn net.vertex.length (feedsOf net.vertex)).1, ?_, c1, ?_, ?_⟩
  · rw [← heq]; rfl
  · rw [← c3, ← heq]
    show (!(determineOrderIn _ _).2) = true ↔ (determineOrderIn _ _).2 = false
    simp [determineOrder]
  · intro hc a i b hab j hj
    exact c2 hc a i b hab j ((mem_feedsOf h.valid i j).2 hj)

/-- A diamond of four nodes with doubled wires, pushed in the wrong order. -/
example : determineOrderIn 4 (fun i => match i with | 0 => [1, 2, 2] | 1 => [3] | 2 => [3, 3] | _ => []) = ([3, 2, 1, 0], true) := by
  decide
example : (determineOrderIn 3 (fun i => match i with | 0 => [1] | 1 => [2] | _ => [1])).2 = false := by decide

end Fundsp.Net
