import Verif.Setting.Model
import Verif.Core.TickBlock

/-! # C20: settings reach exactly the addressed component; C70: setting listeners -/

namespace Fundsp.Setting
variable {P L : Type}

/-! ## Specification: components and their addresses -/

/-- `Comp t pos a l`: at position `pos` of the tree (child numbers from the root) there is the leaf component `l`; `a` is the address path a
user writes to reach it, `none` if the setting system does not give it an address. Binary nodes have branches `left` and `right`; unary nodes
and wrappers do not appear in addresses; arrays are addressed by index and net nodes by their id. -/
inductive Comp : Tree L → List Nat → Option (List Addr) → L → Prop
  | leaf (l : L) : Comp (.leaf l) [] (some []) l
  | left {k x y p a l} : Comp x p a l → Comp (.bin k x y) (0 :: p) (a.map (Addr.left :: ·)) l
  | right {k x y p a l} : Comp y p a l → Comp (.bin k x y) (1 :: p) (a.map (Addr.right :: ·)) l
  | un {k x p a l} : Comp x p a l → Comp (.un k x) (0 :: p) a l
  | multi {k n x p a l} (i : Fin n) : Comp (x i) p a l → Comp (.multi k n x) (i.1 :: p) (a.map (Addr.index i.1 :: ·)) l
  | net {n index x p a l} (i : Fin n) (id : Nat) : index id = some i → Comp (x i) p a l →
      Comp (.net n index x) (i.1 :: p) (a.map (Addr.node id :: ·)) l
  | closed {n x p a l} (i : Fin n) : Comp (x i) p a l → Comp (.closed n x) (i.1 :: p) none l

/-- All nets in the tree give each node one id. -/
def OneId : Tree L → Prop
  | .leaf _ => True
  | .bin _ x y => OneId x ∧ OneId y
  | .un _ x => OneId x
  | .multi _ _ x => ∀ i, OneId (x i)
  | .net _ index x => (∀ id id' i, index id = some i → index id' = some i → id = id') ∧ ∀ i, OneId (x i)
  | .closed _ x => ∀ i, OneId (x i)

/-- The address `p` of a setting leads to a component with address `a`. -/
def Leads : Option (List Addr) → List Addr → Prop
  | some a, p => a <+: p
  | none, _ => False

/-- The setting a component receives: the rest of the address is left in it. -/
def rest (s : Setting P) : Option (List Addr) → Setting P
  | some a => { s with address := s.address.drop a.length }
  | none => s

/-- The path walks into an array with an index beyond its end. -/
inductive Beyond : Tree L → List Addr → Prop
  | left {k x y p} : Beyond x p → Beyond (.bin k x y) (.left :: p)
  | right {k x y p} : Beyond y p → Beyond (.bin k x y) (.right :: p)
  | un {k x p} : Beyond x p → Beyond (.un k x) p
  | here {k n x p i} : n ≤ i → Beyond (.multi k n x) (.index i :: p)
  | multi {k n x p} (i : Fin n) : Beyond (x i) p → Beyond (.multi k n x) (.index i.1 :: p)
  | net {n index x p id} (i : Fin n) : index id = some i → Beyond (x i) p → Beyond (.net n index x) (.node id :: p)

/-! ## Directions -/

theorem Bin.dir_true {k : Bin} {a : Addr} : k.dir a = some true ↔ a = .left := by cases k <;> cases a <;> simp [Bin.dir]
theorem Bin.dir_false {k : Bin} {a : Addr} : k.dir a = some false ↔ a = .right := by cases k <;> cases a <;> simp [Bin.dir]
theorem Multi.dir_some {k : Multi} {a : Addr} {i : Nat} : k.dir a = some i ↔ a = .index i := by
  cases k <;> cases a <;> simp [Multi.dir]
theorem Un.pass_eq (k : Un) (s : Setting P) : k.pass s = s := by cases k <;> rfl

theorem direction_eq {s : Setting P} {a : Addr} (ha : a ≠ .null) : s.direction = a ↔ ∃ p, s.address = a :: p := by
  obtain ⟨q, p⟩ := s
  cases p with
  | nil => simp [Setting.direction, ha.symm]
  | cons b p => simp [Setting.direction]

theorem leads_map {a : Option (List Addr)} {b : Addr} {p : List Addr} :
    Leads (a.map (b :: ·)) p ↔ ∃ q, p = b :: q ∧ Leads a q := by
  cases a with
  | none => simp [Leads]
  | some a =>
    cases p with
    | nil => simp [Leads]
    | cons c p =>
      constructor
      · intro h
        obtain ⟨rfl, h'⟩ := List.cons_prefix_cons.1 (show b :: a <+: c :: p from h)
        exact ⟨p, rfl, h'⟩
      · rintro ⟨q, e, h⟩
        rw [e]
        exact List.cons_prefix_cons.2 ⟨rfl, h⟩

theorem rest_map {a : Option (List Addr)} {b : Addr} {s : Setting P} {q : List Addr} (h : s.address = b :: q) (hl : Leads a q) :
    rest s (a.map (b :: ·)) = rest s.peel a := by
  cases a with
  | none => exact hl.elim
  | some a => simp [rest, Setting.peel, h]

/-! ## C20 -/

open Classical in
/-- What one component becomes. -/
noncomputable def after (leafSet : L → Setting P → L) (s : Setting P) (a : Option (List Addr)) (l : L) : L :=
  if Leads a s.address then leafSet l (rest s a) else l

theorem after_pos {leafSet : L → Setting P → L} {s : Setting P} {a : Option (List Addr)} {l : L} (h : Leads a s.address) :
    after leafSet s a l = leafSet l (rest s a) := if_pos h
theorem after_neg {leafSet : L → Setting P → L} {s : Setting P} {a : Option (List Addr)} {l : L} (h : ¬ Leads a s.address) :
    after leafSet s a l = l := if_neg h

theorem after_map {leafSet : L → Setting P → L} {s : Setting P} {a : Option (List Addr)} {l : L} {b : Addr} {q : List Addr}
    (h : s.address = b :: q) : after leafSet s (a.map (b :: ·)) l = after leafSet s.peel a l := by
  have hp : s.peel.address = q := by simp [Setting.peel, h]
  by_cases hl : Leads a q
  · rw [after_pos (leads_map.2 ⟨q, h, hl⟩), after_pos (hp ▸ hl), rest_map h hl]
  · rw [after_neg, after_neg (hp ▸ hl)]
    intro h2
    obtain ⟨q', e, hl'⟩ := leads_map.1 h2
    rw [h] at e
    exact hl ((List.cons.inj e).2 ▸ hl')

theorem after_other {leafSet : L → Setting P → L} {s : Setting P} {a : Option (List Addr)} {l : L} {b : Addr}
    (h : ∀ q, s.address ≠ b :: q) : after leafSet s (a.map (b :: ·)) l = l := by
  refine after_neg ?_
  intro h2
  obtain ⟨q', e, _⟩ := leads_map.1 h2
  exact h q' e

/-- **C20.** Applying a setting to any tree changes each component exactly as follows: a component whose address leads the path of the setting
gets the setting (with the rest of the path); every other component, addressed or not, is unchanged. -/
theorem C20_exactly (leafSet : L → Setting P → L) (t t' : Tree L) (s : Setting P) (h1 : OneId t) (h : t.set leafSet s = some t')
    (pos : List Nat) (a : Option (List Addr)) (l : L) (hc : Comp t pos a l) : Comp t' pos a (after leafSet s a l) := by
  induction hc generalizing s t' with
  | leaf l =>
    simp only [Tree.set, Option.some.injEq] at h
    subst h
    rw [after_pos (show Leads (some []) s.address from List.nil_prefix)]
    exact Comp.leaf _
  | @left k x y p a l hx ih =>
    simp only [Tree.set] at h
    split at h
    · rename_i hd
      obtain ⟨q, hq⟩ := (direction_eq (by simp)).1 (Bin.dir_true.1 hd)
      obtain ⟨x', hx', rfl⟩ := Option.map_eq_some_iff.1 h
      rw [after_map hq]
      exact .left (ih x' s.peel h1.1 hx')
    · rename_i hd
      obtain ⟨q, hq⟩ := (direction_eq (by simp)).1 (Bin.dir_false.1 hd)
      obtain ⟨y', hy', rfl⟩ := Option.map_eq_some_iff.1 h
      rw [after_other (by simp [hq])]
      exact .left hx
    · rename_i hd
      obtain rfl := Option.some.inj h
      rw [after_other]
      · exact .left hx
      · intro q hq
        rw [Bin.dir_true.2 ((direction_eq (by simp)).2 ⟨q, hq⟩)] at hd
        exact absurd hd (by simp)
  | @right k x y p a l hy ih =>
    simp only [Tree.set] at h
    split at h
    · rename_i hd
      obtain ⟨q, hq⟩ := (direction_eq (by simp)).1 (Bin.dir_true.1 hd)
      obtain ⟨x', hx', rfl⟩ := Option.map_eq_some_iff.1 h
      rw [after_other (by simp [hq])]
      exact .right hy
    · rename_i hd
      obtain ⟨q, hq⟩ := (direction_eq (by simp)).1 (Bin.dir_false.1 hd)
      obtain ⟨y', hy', rfl⟩ := Option.map_eq_some_iff.1 h
      rw [after_map hq]
      exact .right (ih y' s.peel h1.2 hy')
    · rename_i hd
      obtain rfl := Option.some.inj h
      rw [after_other]
      · exact .right hy
      · intro q hq
        rw [Bin.dir_false.2 ((direction_eq (by simp)).2 ⟨q, hq⟩)] at hd
        exact absurd hd (by simp)
  | @un k x p a l hx ih =>
    simp only [Tree.set, Un.pass_eq] at h
    obtain ⟨x', hx', rfl⟩ := Option.map_eq_some_iff.1 h
    exact .un (ih x' s h1 hx')
  | @multi k n x p a l i hx ih =>
    simp only [Tree.set] at h
    split at h
    · rename_i j hd
      obtain ⟨q, hq⟩ := (direction_eq (by simp)).1 (Multi.dir_some.1 hd)
      split at h
      · rename_i hj
        obtain ⟨x', hx', rfl⟩ := Option.map_eq_some_iff.1 h
        by_cases hij : i = ⟨j, hj⟩
        · subst hij
          rw [after_map hq]
          exact Comp.multi (x := Function.update x ⟨j, hj⟩ x') ⟨j, hj⟩ (by rw [Function.update_self]; exact ih x' s.peel (h1 _) hx')
        · rw [after_other (by
            intro q' hq'
            rw [hq] at hq'
            have := (List.cons.inj hq').1
            simp only [Addr.index.injEq] at this
            exact hij (Fin.ext this.symm))]
          exact Comp.multi i (by rw [Function.update_of_ne hij]; exact hx)
      · exact absurd h (by simp)
    · rename_i hd
      obtain rfl := Option.some.inj h
      rw [after_other]
      · exact Comp.multi i hx
      · intro q hq
        rw [Multi.dir_some.2 ((direction_eq (by simp)).2 ⟨q, hq⟩)] at hd
        exact absurd hd (by simp)
  | @net n index x p a l i id hid hx ih =>
    simp only [Tree.set] at h
    split at h
    · rename_i id' hd
      obtain ⟨q, hq⟩ := (direction_eq (by simp)).1 hd
      split at h
      · rename_i j hj
        obtain ⟨x', hx', rfl⟩ := Option.map_eq_some_iff.1 h
        by_cases hij : i = j
        · subst hij
          obtain rfl := h1.1 _ _ _ hid hj
          rw [after_map hq]
          exact Comp.net i id hid (by rw [Function.update_self]; exact ih x' s.peel (h1.2 _) hx')
        · rw [after_other (by
            intro q' hq'
            rw [hq] at hq'
            have := (List.cons.inj hq').1
            simp only [Addr.node.injEq] at this
            subst this
            exact hij (Option.some.inj (hid.symm.trans hj)))]
          exact Comp.net i id hid (by rw [Function.update_of_ne hij]; exact hx)
      · rename_i hj
        obtain rfl := Option.some.inj h
        rw [after_other (by
            intro q' hq'
            rw [hq] at hq'
            have := (List.cons.inj hq').1
            simp only [Addr.node.injEq] at this
            subst this
            rw [hid] at hj
            exact absurd hj (by simp))]
        exact Comp.net i id hid hx
    · rename_i hd
      obtain rfl := Option.some.inj h
      rw [after_other]
      · exact Comp.net i id hid hx
      · intro q hq
        exact hd id ((direction_eq (by simp)).2 ⟨q, hq⟩)
  | @closed n x p a l i hx ih =>
    simp only [Tree.set] at h
    obtain rfl := Option.some.inj h
    rw [after_neg (show ¬ Leads none s.address from fun h => h)]
    exact Comp.closed i hx

/-- **C20** (one component): at most one component of the tree is reached by a path. -/
theorem C20_unique (t : Tree L) (p : List Addr) (pos pos' : List Nat) (a a' : Option (List Addr)) (l l' : L) (h : Comp t pos a l)
    (h' : Comp t pos' a' l') (hl : Leads a p) (hl' : Leads a' p) : pos = pos' ∧ l = l' := by
  induction h generalizing pos' a' l' p with
  | leaf l => cases h'; exact ⟨rfl, rfl⟩
  | left h ih =>
    obtain ⟨q, rfl, hq⟩ := leads_map.1 hl
    cases h' with
    | left h' =>
      obtain ⟨q', e, hq'⟩ := leads_map.1 hl'
      obtain rfl := (List.cons.inj e).2
      obtain ⟨rfl, rfl⟩ := ih q _ _ _ h' hq hq'
      exact ⟨rfl, rfl⟩
    | right h' =>
      obtain ⟨q', e, hq'⟩ := leads_map.1 hl'
      exact absurd (List.cons.inj e).1 (by simp)
  | right h ih =>
    obtain ⟨q, rfl, hq⟩ := leads_map.1 hl
    cases h' with
    | left h' =>
      obtain ⟨q', e, hq'⟩ := leads_map.1 hl'
      exact absurd (List.cons.inj e).1 (by simp)
    | right h' =>
      obtain ⟨q', e, hq'⟩ := leads_map.1 hl'
      obtain rfl := (List.cons.inj e).2
      obtain ⟨rfl, rfl⟩ := ih q _ _ _ h' hq hq'
      exact ⟨rfl, rfl⟩
  | un h ih =>
    cases h' with
    | un h' =>
      obtain ⟨rfl, rfl⟩ := ih p _ _ _ h' hl hl'
      exact ⟨rfl, rfl⟩
  | multi i h ih =>
    obtain ⟨q, rfl, hq⟩ := leads_map.1 hl
    cases h' with
    | multi j h' =>
      obtain ⟨q', e, hq'⟩ := leads_map.1 hl'
      obtain rfl := (List.cons.inj e).2
      have e1 := (List.cons.inj e).1
      simp only [Addr.index.injEq] at e1
      obtain rfl := Fin.ext e1
      obtain ⟨rfl, rfl⟩ := ih q _ _ _ h' hq hq'
      exact ⟨rfl, rfl⟩
  | net i id hid h ih =>
    obtain ⟨q, rfl, hq⟩ := leads_map.1 hl
    cases h' with
    | net j id' hid' h' =>
      obtain ⟨q', e, hq'⟩ := leads_map.1 hl'
      obtain rfl := (List.cons.inj e).2
      have e1 := (List.cons.inj e).1
      simp only [Addr.node.injEq] at e1
      subst e1
      obtain rfl := Option.some.inj (hid.symm.trans hid')
      obtain ⟨rfl, rfl⟩ := ih q _ _ _ h' hq hq'
      exact ⟨rfl, rfl⟩
  | closed i h => exact hl.elim

/-- **C20** (paths that lead nowhere): if the path leads to no component, nothing changes at all. -/
theorem C20_nowhere (leafSet : L → Setting P → L) (t t' : Tree L) (s : Setting P) (h : t.set leafSet s = some t')
    (hn : ∀ pos a l, Comp t pos a l → ¬ Leads a s.address) : t' = t := by
  induction t generalizing s t' with
  | leaf l => exact absurd (List.nil_prefix) (hn _ _ _ (Comp.leaf l))
  | bin k x y ihx ihy =>
    simp only [Tree.set] at h
    split at h
    · rename_i hd
      obtain ⟨q, hq⟩ := (direction_eq (by simp)).1 (Bin.dir_true.1 hd)
      obtain ⟨x', hx', rfl⟩ := Option.map_eq_some_iff.1 h
      rw [ihx x' s.peel hx' (fun pos a l hc hl => hn _ _ _ (.left hc) (leads_map.2 ⟨q, hq, by simpa [Setting.peel, hq] using hl⟩))]
    · rename_i hd
      obtain ⟨q, hq⟩ := (direction_eq (by simp)).1 (Bin.dir_false.1 hd)
      obtain ⟨y', hy', rfl⟩ := Option.map_eq_some_iff.1 h
      rw [ihy y' s.peel hy' (fun pos a l hc hl => hn _ _ _ (.right hc) (leads_map.2 ⟨q, hq, by simpa [Setting.peel, hq] using hl⟩))]
    · exact (Option.some.inj h).symm
  | un k x ih =>
    simp only [Tree.set, Un.pass_eq] at h
    obtain ⟨x', hx', rfl⟩ := Option.map_eq_some_iff.1 h
    rw [ih x' s hx' (fun pos a l hc hl => hn _ _ _ (.un hc) hl)]
  | multi k n x ih =>
    simp only [Tree.set] at h
    split at h
    · rename_i j hd
      obtain ⟨q, hq⟩ := (direction_eq (by simp)).1 (Multi.dir_some.1 hd)
      split at h
      · rename_i hj
        obtain ⟨x', hx', rfl⟩ := Option.map_eq_some_iff.1 h
        rw [ih ⟨j, hj⟩ x' s.peel hx' (fun pos a l hc hl =>
          hn _ _ _ (.multi ⟨j, hj⟩ hc) (leads_map.2 ⟨q, hq, by simpa [Setting.peel, hq] using hl⟩)), Function.update_eq_self]
      · exact absurd h (by simp)
    · exact (Option.some.inj h).symm
  | net n index x ih =>
    simp only [Tree.set] at h
    split at h
    · rename_i id' hd
      obtain ⟨q, hq⟩ := (direction_eq (by simp)).1 hd
      split at h
      · rename_i j hj
        obtain ⟨x', hx', rfl⟩ := Option.map_eq_some_iff.1 h
        rw [ih j x' s.peel hx' (fun pos a l hc hl =>
          hn _ _ _ (.net j id' hj hc) (leads_map.2 ⟨q, hq, by simpa [Setting.peel, hq] using hl⟩)), Function.update_eq_self]
      · exact (Option.some.inj h).symm
    · exact (Option.some.inj h).symm
  | closed n x ih => exact (Option.some.inj h).symm

/-- **C20** (panics): `set` panics exactly when the path walks beyond the end of an array of components. -/
theorem C20_panics (leafSet : L → Setting P → L) (t : Tree L) (s : Setting P) : t.set leafSet s = none ↔ Beyond t s.address := by
  have hpeel : ∀ {s : Setting P} {b q}, s.address = b :: q → s.peel.address = q := by
    intro s b q h; simp [Setting.peel, h]
  induction t generalizing s with
  | leaf l => simp only [Tree.set]; exact ⟨fun h => absurd h (by simp), fun h => by cases h⟩
  | bin k x y ihx ihy =>
    simp only [Tree.set]
    split
    · rename_i hd
      obtain ⟨q, hq⟩ := (direction_eq (by simp)).1 (Bin.dir_true.1 hd)
      have e := ihx s.peel
      rw [hpeel hq] at e
      refine Option.map_eq_none_iff.trans (e.trans ?_)
      rw [hq]
      exact ⟨.left, fun h => by cases h; assumption⟩
    · rename_i hd
      obtain ⟨q, hq⟩ := (direction_eq (by simp)).1 (Bin.dir_false.1 hd)
      have e := ihy s.peel
      rw [hpeel hq] at e
      refine Option.map_eq_none_iff.trans (e.trans ?_)
      rw [hq]
      exact ⟨.right, fun h => by cases h; assumption⟩
    · rename_i hd
      refine ⟨fun h => absurd h (by simp), fun h => ?_⟩
      generalize hp : s.address = p at h
      cases h with
      | left h => rw [Bin.dir_true.2 ((direction_eq (by simp)).2 ⟨_, hp⟩)] at hd; exact absurd hd (by simp)
      | right h => rw [Bin.dir_false.2 ((direction_eq (by simp)).2 ⟨_, hp⟩)] at hd; exact absurd hd (by simp)
  | un k x ih =>
    simp only [Tree.set, Un.pass_eq]
    have e := ih s
    refine Option.map_eq_none_iff.trans (e.trans ?_)
    exact ⟨.un, fun h => by cases h; assumption⟩
  | multi k n x ih =>
    simp only [Tree.set]
    split
    · rename_i j hd
      obtain ⟨q, hq⟩ := (direction_eq (by simp)).1 (Multi.dir_some.1 hd)
      rw [hq]
      split
      · rename_i hj
        have e := ih ⟨j, hj⟩ s.peel
        rw [hpeel hq] at e
        refine Option.map_eq_none_iff.trans (e.trans ?_)
        refine ⟨fun h => .multi ⟨j, hj⟩ h, fun h => ?_⟩
        cases h with
        | here h => omega
        | multi i h => exact h
      · rename_i hj
        exact ⟨fun _ => .here (by omega), fun _ => rfl⟩
    · rename_i hd
      refine ⟨fun h => absurd h (by simp), fun h => ?_⟩
      generalize hp : s.address = p at h
      cases h with
      | here h => rw [Multi.dir_some.2 ((direction_eq (by simp)).2 ⟨_, hp⟩)] at hd; exact absurd hd (by simp)
      | multi i h => rw [Multi.dir_some.2 ((direction_eq (by simp)).2 ⟨_, hp⟩)] at hd; exact absurd hd (by simp)
  | net n index x ih =>
    simp only [Tree.set]
    split
    · rename_i id' hd
      obtain ⟨q, hq⟩ := (direction_eq (by simp)).1 hd
      rw [hq]
      split
      · rename_i j hj
        have e := ih j s.peel
        rw [hpeel hq] at e
        refine Option.map_eq_none_iff.trans (e.trans ?_)
        refine ⟨fun h => .net j hj h, fun h => ?_⟩
        cases h with
        | net i hi h => obtain rfl := Option.some.inj (hi.symm.trans hj); exact h
      · rename_i hj
        refine ⟨fun h => absurd h (by simp), fun h => ?_⟩
        cases h with
        | net i hi h => rw [hi] at hj; exact absurd hj (by simp)
    · rename_i hd
      refine ⟨fun h => absurd h (by simp), fun h => ?_⟩
      generalize hp : s.address = p at h
      cases h with
      | net i hi h => exact absurd ((direction_eq (by simp)).2 ⟨_, hp⟩) (hd _)
  | closed n x ih => simp only [Tree.set]; exact ⟨fun h => absurd h (by simp), fun h => by cases h⟩

/-- **C20** (building paths): the builder methods append one level, up to four levels, and panic on a fifth. The path is read in the order
written. -/
theorem C20_build (v : P) (p : List Addr) :
    p.foldlM (fun s a => Setting.push s a) (⟨v, []⟩ : Setting P) = if p.length ≤ 4 then some ⟨v, p⟩ else none := by
  have : ∀ (p q : List Addr), q.length ≤ 4 → p.foldlM (fun s a => Setting.push s a) (⟨v, q⟩ : Setting P) =
      if q.length + p.length ≤ 4 then some ⟨v, q ++ p⟩ else none := by
    intro p
    induction p with
    | nil => intro q hq; simp [hq]
    | cons a p ih =>
      intro q hq
      rw [List.foldlM_cons]
      simp only [Setting.push]
      split
      · rename_i hlt
        refine (ih (q ++ [a]) (by simp; omega)).trans ?_
        simp only [List.length_append, List.length_cons, List.length_nil, List.append_assoc, List.cons_append, List.nil_append]
        congr 1
        exact propext ⟨by omega, by omega⟩
      · rename_i hlt
        simp only [List.length_cons]
        rw [if_neg (by omega)]; rfl
  simpa using this p [] (by simp)

/-- A component with one parameter whose `set` only looks at the parameter, like `Constant` (`audionode.rs:483-487`). -/
def constSet : Nat → Setting Nat → Nat := fun _ s => s.param

/-- `(dc | bus [dc, dc]) >> net {7: dc}`: the path right, node 7 reaches the net node; path left, right, index 1 reaches the second of the array. -/
def exTree : Tree Nat :=
  .un .an (.bin .pipe (.bin .stack (.leaf 1) (.multi .multiBus 2 (fun i => .leaf (10 + i.1))))
    (.net 1 (fun id => if id = 7 then some 0 else none) (fun _ => .un .thru (.leaf 5))))

example : OneId exTree :=
  ⟨⟨trivial, fun _ => trivial⟩, fun a b i ha hb => by
    simp only at ha hb; split at ha <;> split at hb <;> simp_all, fun _ => trivial⟩
example : Comp exTree [0, 0, 1, 1] (some [.left, .right, .index 1]) 11 :=
  .un (.left (k := .pipe) (a := some [.right, .index 1]) (.right (k := .stack) (a := some [.index 1])
    (.multi (k := .multiBus) (x := fun i : Fin 2 => Tree.leaf (10 + i.1)) (1 : Fin 2) (.leaf 11))))
example : exTree.set constSet ⟨99, [.left, .right, .index 1]⟩ = some (.un .an (.bin .pipe (.bin .stack (.leaf 1)
    (.multi .multiBus 2 (Function.update (fun i => .leaf (10 + i.1)) 1 (.leaf 99))))
    (.net 1 (fun id => if id = 7 then some 0 else none) (fun _ => .un .thru (.leaf 5))))) := rfl
example : Beyond exTree [.left, .right, .index 2] := .un (.left (.right (.here (by omega))))

/-- **C20, the full claim fails (1).** "A path that does not exist changes nothing": components do not look at the rest of the path, so a path that
goes on below a component sets that component. In `dc(1) >> sink` no component has the path left, left; the setting changes the constant. -/
theorem C20_violation_below : (∀ pos l, ¬ Comp (Tree.bin .pipe (.leaf 1) (.leaf 2) : Tree Nat) pos (some [.left, .left]) l) ∧
    (Tree.bin .pipe (.leaf 1) (.leaf 2) : Tree Nat).set constSet ⟨99, [.left, .left]⟩ = some (.bin .pipe (.leaf 99) (.leaf 2)) := by
  refine ⟨?_, rfl⟩
  intro pos l h
  generalize ha : (some [Addr.left, .left] : Option (List Addr)) = a at h
  cases h with
  | left h => cases h; simp at ha
  | right h => cases h; simp at ha

/-- **C20, the full claim fails (2).** A path with an index beyond the end of an array is not ignored; it panics. -/
theorem C20_violation_panic : (Tree.multi .multiBus 2 (fun _ => .leaf 1) : Tree Nat).set constSet ⟨99, [.index 2]⟩ = none := rfl

/-! ## C70 -/

variable {α : Type} {i o : Nat}

theorem receive_eq {σ : Type} (l : Listener σ P) : l.receive = { l with queue := [] } := by
  have : ∀ (q : List (Setting P)) (l : Listener σ P), q.foldl (fun l s => l.set s) l = l := by
    intro q
    induction q with
    | nil => intro l; rfl
    | cons a q ih => intro l; exact ih _
  exact this _ _

/-- The full claim C70: after settings are sent, the next tick runs the node with the settings applied in order. -/
def ListenerDelivers (X : Node α i o) (set : X.σ → Setting P → X.σ) : Prop :=
  ∀ (l : Listener X.σ P) (x : Frame α i), ((listenerNode P X).tick l x).2 = (X.tick (l.queue.foldl set l.x) x).2

/-- **C70 fails**: no setting sent through a listener ever reaches the node. A listener over any node behaves like the bare node, whatever is
sent; so as soon as some setting makes an audible difference, the claim is false. -/
theorem C70_violation (X : Node α i o) (set : X.σ → Setting P → X.σ) (s : X.σ) (st : Setting P) (x : Frame α i)
    (h : (X.tick (set s st) x).2 ≠ (X.tick s x).2) : ¬ ListenerDelivers X set := by
  intro hd
  have := hd ⟨s, [st]⟩ x
  have e : ((listenerNode P X).tick (⟨s, [st]⟩ : Listener X.σ P) x).2 = (X.tick s x).2 := by
    simp only [listenerNode, receive_eq]
  rw [e] at this
  exact h this.symm

/-- `dc(0)` under a listener: after `Setting::value(1)` is sent the output is still 0. -/
example : ¬ ListenerDelivers (P := Nat) (Node.ofTick Nat id (fun s _ => (s, fun _ => s)) : Node Nat 0 1) constSet :=
  C70_violation _ _ (0 : Nat) ⟨1, []⟩ (fun c => c.elim0) (fun h => absurd (congrFun h 0) (by decide))

/-- **C70, what holds**: a listener is transparent. In any schedule of ticks, blocks, resets, whatever settings are waiting, its output is that of the
node itself. Missing from the full claim: that the settings are applied. -/
theorem C70_transparent_partial (X : Node α i o) (w : Nat → Frame α i) (cs : List (Call α i o)) (t : Nat) (l : Listener X.σ P) :
    ((listenerNode P X).exec w cs t l).2 = (X.exec w cs t l.x).2 := by
  induction cs generalizing t l with
  | nil => rfl
  | cons c cs ih =>
    cases c with
    | tick =>
      refine (congrArg₂ List.cons (x' := (X.tick l.x (w t)).2) ?_ (ih (t + 1) _)).trans ?_
      · simp only [listenerNode, receive_eq]
      · simp only [listenerNode, receive_eq]; rfl
    | reset =>
      refine (ih t _).trans ?_
      simp only [listenerNode, receive_eq]; rfl
    | block size tail old g =>
      refine (congrArg₂ (· ++ ·) (x' := (List.range size).map (X.process g l.x size (blockInput w t size tail) old).2.frame) ?_
        (ih (t + size) _)).trans ?_
      · simp only [listenerNode, receive_eq]
      · simp only [listenerNode, receive_eq]; rfl

/-- **C70** (room): every tick, block and reset takes all waiting settings out of the channel, so 64 settings can be sent before the next call; settings
are refused exactly beyond that. -/
theorem C70_room_partial (X : Node α i o) (l : Listener X.σ P) (w : Nat → Frame α i) (c : Call α i o) (t : Nat) (ss : List (Setting P)) :
    (ss.foldlM Listener.send ((listenerNode P X).exec w [c] t l).1 : Option (Listener X.σ P)).isSome ↔ ss.length ≤ 64 := by
  have hq : (((listenerNode P X).exec w [c] t l).1 : Listener X.σ P).queue = [] := by
    cases c with
    | tick => show ((listenerNode P X).tick l (w t)).1.queue = []; simp only [listenerNode, receive_eq]
    | reset => show ((listenerNode P X).reset l).queue = []; simp only [listenerNode, receive_eq]
    | block size tail old g => show ((listenerNode P X).process g l size _ old).1.queue = []; simp only [listenerNode, receive_eq]
  have key : ∀ (ss : List (Setting P)) (l : Listener X.σ P), l.queue.length ≤ 64 →
      ((ss.foldlM Listener.send l).isSome ↔ l.queue.length + ss.length ≤ 64) := by
    intro ss
    induction ss with
    | nil => intro l h; simpa using h
    | cons s ss ih =>
      intro l h
      rw [List.foldlM_cons, List.length_cons]
      by_cases hl : l.queue.length < 64
      · rw [show l.send s = some { l with queue := l.queue ++ [s] } from if_pos hl]
        refine (ih _ (by simp; omega)).trans ?_
        simp only [List.length_append, List.length_cons, List.length_nil]
        omega
      · rw [show l.send s = none from if_neg hl]
        simp only [Option.bind_eq_bind, Option.bind_none, Option.isSome_none, Bool.false_eq_true, false_iff]
        omega
  have := key ss ((listenerNode P X).exec w [c] t l).1 (by rw [hq]; simp)
  rwa [hq, List.length_nil, Nat.zero_add] at this

end Fundsp.Setting
