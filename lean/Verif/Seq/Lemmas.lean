import Verif.Seq.Spec
import Mathlib.Tactic.FieldSimp
import Mathlib.Tactic.Ring
import Mathlib.Tactic.Linarith
import Mathlib.Data.List.Perm.Basic
import Mathlib.Data.List.Nodup
import Mathlib.Algebra.BigOperators.Group.List.Basic

/-! Helper lemmas about the loops of the sequencer. -/

namespace Fundsp.Seq
variable {K : Type} [Field K] [LinearOrder K] [FloorRing K] {U : Type} {n : Nat}

/-- The index map is right. -/
def AM (m : Nat → Option Nat) (l : List (Ev K U)) : Prop := ∀ id i, m id = some i ↔ (l[i]?).map (·.id) = some id

def ids (l : List (Ev K U)) : List Nat := l.map (·.id)

theorem ids_append (a b : List (Ev K U)) : ids (a ++ b) = ids a ++ ids b := List.map_append
theorem mem_ids {l : List (Ev K U)} {id : Nat} : id ∈ ids l ↔ ∃ e ∈ l, e.id = id := List.mem_map

theorem ids_inj {l : List (Ev K U)} (h : (ids l).Nodup) {i j : Nat} {id : Nat} (hi : (l[i]?).map (·.id) = some id)
    (hj : (l[j]?).map (·.id) = some id) : i = j := by
  rw [← List.getElem?_map] at hi hj
  obtain ⟨a, ha⟩ := List.getElem?_eq_some_iff.1 hi
  obtain ⟨b, hb⟩ := List.getElem?_eq_some_iff.1 hj
  exact (List.Nodup.getElem_inj_iff h).1 (ha.trans hb.symm)

theorem AM.push {m : Nat → Option Nat} {l : List (Ev K U)} (h : AM m l) {e : Ev K U} (he : e.id ∉ ids l) :
    AM (Function.update m e.id (some l.length)) (l ++ [e]) := by
  intro id i
  by_cases hid : id = e.id
  · subst hid
    rw [Function.update_self, Option.some.injEq]
    constructor
    · rintro rfl; simp
    · intro hi
      rcases Nat.lt_trichotomy i l.length with hlt | heq | hgt
      · rw [List.getElem?_append_left hlt] at hi
        exact absurd (mem_ids.2 ⟨l[i], List.getElem_mem _, by simpa [List.getElem?_eq_getElem hlt] using hi⟩) he
      · exact heq.symm
      · rw [List.getElem?_eq_none (by simp; omega)] at hi; simp at hi
  · rw [Function.update_of_ne hid, h id i]
    rcases Nat.lt_trichotomy i l.length with hlt | heq | hgt
    · rw [List.getElem?_append_left hlt]
    · subst heq; simp [Ne.symm hid]
    · rw [List.getElem?_eq_none (l := l) (by omega), List.getElem?_eq_none (l := l ++ [e]) (by simp; omega)]

theorem swapRemove_getElem? {β : Type} (l : List β) (i j : Nat) (hi : i < l.length) :
    (swapRemove l i)[j]? = if j = i ∧ i + 1 < l.length then l[l.length - 1]? else if j < l.length - 1 then l[j]? else none := by
  have hl : l.getLast? = some (l[l.length - 1]'(by omega)) := by rw [List.getLast?_eq_getElem?, List.getElem?_eq_getElem]
  simp only [swapRemove, hl]
  rw [List.getElem?_dropLast, List.length_set, List.getElem?_set]
  by_cases hj : j < l.length - 1
  · rw [if_pos hj]
    by_cases hij : i = j
    · subst hij
      rw [if_pos rfl, if_pos hi, if_pos ⟨rfl, by omega⟩, List.getElem?_eq_getElem]
    · rw [if_neg hij, if_neg (fun h => hij h.1.symm), if_pos hj]
  · rw [if_neg hj, if_neg (by omega), if_neg hj]

theorem swapRemove_split {β : Type} (pre : List β) (e : β) (rest : List β) :
    ∃ rest', swapRemove (pre ++ e :: rest) pre.length = pre ++ rest' ∧ rest'.Perm rest := by
  rcases List.eq_nil_or_concat rest with rfl | ⟨mid, z, rfl⟩
  · exact ⟨[], by simp [swapRemove], List.Perm.refl _⟩
  · refine ⟨z :: mid, ?_, ?_⟩
    · have : (pre ++ e :: (mid ++ [z])).getLast? = some z := by
        rw [← List.cons_append, ← List.append_assoc, List.getLast?_append]; simp
      simp only [swapRemove, List.concat_eq_append, this]
      rw [List.set_append_right _ _ (Nat.le_refl _), Nat.sub_self, List.set_cons_zero, ← List.cons_append, ← List.append_assoc,
        List.dropLast_concat]
    · rw [List.concat_eq_append]; exact (List.perm_append_singleton z mid).symm

theorem AM.swapRemove {m : Nat → Option Nat} {l : List (Ev K U)} (h : AM m l) (hn : (ids l).Nodup) {i : Nat} {e : Ev K U}
    (he : l[i]? = some e) :
    AM (if i + 1 < l.length then
            (match l.getLast? with
              | some z => Function.update (Function.update m e.id none) z.id (some i)
              | none => Function.update m e.id none) else Function.update m e.id none) (swapRemove l i) := by
  have hi : i < l.length := (List.getElem?_eq_some_iff.1 he).1
  have hei : (l[i]?).map (·.id) = some e.id := by rw [he]; rfl
  have hlast : l.getLast? = l[l.length - 1]? := List.getLast?_eq_getElem?
  intro id j
  rw [swapRemove_getElem? l i j hi]
  by_cases hlt : i + 1 < l.length
  · rw [if_pos hlt, hlast]
    obtain ⟨z, hz⟩ : ∃ z, l[l.length - 1]? = some z := ⟨_, List.getElem?_eq_getElem (by omega)⟩
    have hzi : (l[l.length - 1]?).map (·.id) = some z.id := by rw [hz]; rfl
    simp only [hz]
    by_cases hid : id = z.id
    · subst hid
      rw [Function.update_self, Option.some.injEq]
      constructor
      · rintro rfl
        rw [if_pos ⟨rfl, hlt⟩]; rfl
      · intro hj
        by_contra hne
        rw [if_neg (fun h => hne h.1.symm)] at hj
        split at hj
        · have := ids_inj hn hj hzi; omega
        · simp at hj
    · rw [Function.update_of_ne hid]
      by_cases hide : id = e.id
      · subst hide
        rw [Function.update_self]
        constructor
        · intro h; simp at h
        · intro hj
          split at hj
          · exact absurd (Option.some.inj hj).symm hid
          · rename_i h1
            split at hj
            · have := ids_inj hn hj hei
              exact absurd ⟨this, hlt⟩ h1
            · simp at hj
      · rw [Function.update_of_ne hide, h id j]
        by_cases hji : j = i
        · subst hji
          rw [if_pos ⟨rfl, hlt⟩, he]
          constructor
          · intro h; exact absurd (Option.some.inj h).symm hide
          · intro h; exact absurd (Option.some.inj h).symm hid
        · rw [if_neg (fun h => hji h.1)]
          split
          · rfl
          · constructor
            · intro hj
              exfalso
              have hjl : j < l.length := by
                by_contra hge
                rw [List.getElem?_eq_none (by omega)] at hj; simp at hj
              obtain rfl : j = l.length - 1 := by omega
              rw [hz] at hj
              exact hid (Option.some.inj hj).symm
            · intro hj; simp at hj
  · rw [if_neg hlt, if_neg (fun h => hlt h.2)]
    obtain rfl : i = l.length - 1 := by omega
    by_cases hide : id = e.id
    · subst hide
      rw [Function.update_self]
      constructor
      · intro h; simp at h
      · intro hj
        split at hj
        · have := ids_inj hn hj hei; omega
        · simp at hj
    · rw [Function.update_of_ne hide, h id j]
      split
      · rfl
      · constructor
        · intro hj
          exfalso
          have hjl : j < l.length := by
            by_contra hge
            rw [List.getElem?_eq_none (by omega)] at hj; simp at hj
          obtain rfl : j = l.length - 1 := by omega
          rw [he] at hj
          exact hide (Option.some.inj hj).symm
        · intro hj; simp at hj

/-- Playing events one after the other. -/
def mapAcc {A : Type} (play : Ev K U → A → Ev K U × A) : List (Ev K U) → A → List (Ev K U) × A
  | [], a => ([], a)
  | e :: l, a =>
    let r := play e a
    let q := mapAcc play l r.2
    (r.1 :: q.1, q.2)

theorem AM.congr {m : Nat → Option Nat} {l l' : List (Ev K U)} (h : AM m l) (e : ids l = ids l') : AM m l' := by
  intro id i
  rw [h id i, ← List.getElem?_map, ← List.getElem?_map]
  show (ids l)[i]? = _ ↔ (ids l')[i]? = _
  rw [e]

theorem evLoop_spec {A : Type} (x : K) (play : Ev K U → A → Ev K U × A) (hid : ∀ e a, (play e a).1.id = e.id) :
    ∀ (f i : Nat) (l : Lp K U A), l.active.length = i + f → (ids l.active).Nodup → AM l.amap l.active →
    ∃ P Q : List (Ev K U), (l.active.drop i).Perm (P ++ Q) ∧ (∀ e ∈ P, e.endsBy x = false) ∧ (∀ e ∈ Q, e.endsBy x = true) ∧
      (evLoop x play f i l).active = l.active.take i ++ (mapAcc play P l.acc).1 ∧
      (evLoop x play f i l).acc = (mapAcc play P l.acc).2 ∧ (evLoop x play f i l).past = l.past ++ Q ∧
      AM (evLoop x play f i l).amap (evLoop x play f i l).active := by
  intro f
  induction f with
  | zero =>
    intro i l hlen hn ham
    refine ⟨[], [], ?_, by simp, by simp, ?_, rfl, by simp [evLoop], ham⟩
    · rw [List.drop_of_length_le (by omega)]; exact List.Perm.refl _
    · simp [evLoop, mapAcc, List.take_of_length_le (show l.active.length ≤ i by omega)]
  | succ f ih =>
    intro i l hlen hn ham
    have hi : i < l.active.length := by omega
    obtain ⟨e, he⟩ : ∃ e, l.active[i]? = some e := ⟨_, List.getElem?_eq_getElem hi⟩
    have hsplit : l.active = l.active.take i ++ e :: l.active.drop (i + 1) := by
      have h1 := List.getElem?_eq_some_iff.1 he
      obtain ⟨h2, h3⟩ := h1
      rw [← h3, List.getElem_cons_drop, List.take_append_drop]
    have hdrop : l.active.drop i = e :: l.active.drop (i + 1) := by
      have h1 := List.getElem?_eq_some_iff.1 he
      obtain ⟨h2, h3⟩ := h1
      rw [← h3, List.getElem_cons_drop]
    have htk : (l.active.take i).length = i := by rw [List.length_take]; omega
    simp only [evLoop, he]
    by_cases hend : e.endsBy x = true
    · simp only [hend, if_true]
      obtain ⟨rest', hr1, hr2⟩ := swapRemove_split (l.active.take i) e (l.active.drop (i + 1))
      rw [← hsplit, htk] at hr1
      have ham' := AM.swapRemove ham hn he
      have hlen' : (swapRemove l.active i).length = i + f := by
        rw [hr1, List.length_append, htk, hr2.length_eq, List.length_drop]; omega
      have hn' : (ids (swapRemove l.active i)).Nodup := by
        rw [hr1]
        have h2 : (ids (l.active.take i ++ e :: l.active.drop (i + 1))).Nodup := by rw [← hsplit]; exact hn
        have h3 : (l.active.take i ++ l.active.drop (i + 1)).Sublist (l.active.take i ++ e :: l.active.drop (i + 1)) :=
          List.Sublist.append_left (List.sublist_cons_self _ _) _
        have h4 : (ids (l.active.take i ++ l.active.drop (i + 1))).Nodup := h2.sublist (h3.map _)
        exact (((List.Perm.append_left _ hr2).map (fun e : Ev K U => e.id)).nodup_iff).2 h4
      obtain ⟨P, Q, h1, h2, h3, h4, h5, h6, h7⟩ := ih i
        { l with
          active := swapRemove l.active i
          amap := if i + 1 < l.active.length then
            (match l.active.getLast? with
              | some z => Function.update (Function.update l.amap e.id none) z.id (some i)
              | none => Function.update l.amap e.id none) else Function.update l.amap e.id none
          past := l.past ++ [e] } hlen' hn' ham'
      have hd : (swapRemove l.active i).drop i = rest' := by
        rw [hr1]; simpa [htk] using List.drop_left (l₁ := l.active.take i) (l₂ := rest')
      have ht : (swapRemove l.active i).take i = l.active.take i := by
        rw [hr1]; simpa [htk] using List.take_left (l₁ := l.active.take i) (l₂ := rest')
      refine ⟨P, e :: Q, ?_, h2, ?_, ?_, h5, ?_, h7⟩
      · rw [hdrop]
        rw [hd] at h1
        exact ((hr2.symm.trans h1).cons e).trans List.perm_middle.symm
      · intro y hy
        rcases List.mem_cons.1 hy with rfl | hy
        · exact hend
        · exact h3 y hy
      · exact h4.trans (by rw [ht])
      · exact h6.trans (by simp)
    · have hend' : e.endsBy x = false := by simpa using hend
      simp only [hend', Bool.false_eq_true, if_false]
      have hset : l.active.set i (play e l.acc).1 = l.active.take i ++ (play e l.acc).1 :: l.active.drop (i + 1) := by
        conv_lhs => rw [hsplit]
        rw [List.set_append_right _ _ (by omega), htk, Nat.sub_self, List.set_cons_zero]
      have hidseq : ids (l.active.set i (play e l.acc).1) = ids l.active := by
        rw [hset]
        conv_rhs => rw [hsplit]
        simp only [ids, List.map_append, List.map_cons, hid]
      obtain ⟨P, Q, h1, h2, h3, h4, h5, h6, h7⟩ := ih (i + 1) { l with active := l.active.set i (play e l.acc).1, acc := (play e l.acc).2 }
        (by simp only [List.length_set]; omega) (by simp only [hidseq]; exact hn) (ham.congr hidseq.symm)
      have hd : (l.active.set i (play e l.acc).1).drop (i + 1) = l.active.drop (i + 1) := by
        rw [hset, ← List.singleton_append, ← List.append_assoc]
        have : (l.active.take i ++ [(play e l.acc).1]).length = i + 1 := by simp [htk]
        simpa [this] using List.drop_left (l₁ := l.active.take i ++ [(play e l.acc).1]) (l₂ := l.active.drop (i + 1))
      have ht : (l.active.set i (play e l.acc).1).take (i + 1) = l.active.take i ++ [(play e l.acc).1] := by
        rw [hset, ← List.singleton_append, ← List.append_assoc]
        have : (l.active.take i ++ [(play e l.acc).1]).length = i + 1 := by simp [htk]
        simpa [this] using List.take_left (l₁ := l.active.take i ++ [(play e l.acc).1]) (l₂ := l.active.drop (i + 1))
      refine ⟨e :: P, Q, ?_, ?_, h3, ?_, ?_, h6, h7⟩
      · rw [hdrop, List.cons_append]
        rw [hd] at h1
        exact h1.cons e
      · intro y hy
        rcases List.mem_cons.1 hy with rfl | hy
        · exact hend'
        · exact h2 y hy
      · rw [h4, ht]; simp [mapAcc]
      · rw [h5]; rfl

/-- Effect of the loop of `ready_to_active`. -/
theorem readyLoop_spec (H : Heap K U) (θ : K) : ∀ (f : Nat) (s : Sq K U), s.ready.length ≤ f → (ids (s.active ++ s.ready)).Nodup →
    AM s.amap s.active →
    ∃ P Q : List (Ev K U), s.ready.Perm (P ++ Q) ∧ (∀ e ∈ P, e.start < θ) ∧ (∀ e ∈ Q, θ ≤ e.start) ∧
      (readyLoop H θ f s).active = s.active ++ P.map (applyEdit s.edits) ∧ (readyLoop H θ f s).ready = Q ∧
      (readyLoop H θ f s).edits = (fun id => if id ∈ ids P then none else s.edits id) ∧
      AM (readyLoop H θ f s).amap (readyLoop H θ f s).active ∧ (readyLoop H θ f s).thr = s.thr ∧
      (readyLoop H θ f s).past = s.past ∧ (readyLoop H θ f s).time = s.time ∧ (readyLoop H θ f s).sr = s.sr ∧
      (readyLoop H θ f s).sd = s.sd ∧ (readyLoop H θ f s).replay = s.replay := by
  intro f
  induction f with
  | zero =>
    intro s hlen hn ham
    have h0 : s.ready = [] := List.length_eq_zero_iff.1 (by omega)
    exact ⟨[], [], by rw [h0]; exact List.Perm.refl _, by simp, by simp, by simp [readyLoop], by simp [readyLoop, h0],
      by simp [readyLoop, ids], ham, rfl, rfl, rfl, rfl, rfl, rfl⟩
  | succ f ih =>
    intro s hlen hn ham
    have hstop : readyLoop H θ (f + 1) s = s → (∀ e ∈ s.ready, θ ≤ e.start) →
        ∃ P Q : List (Ev K U), s.ready.Perm (P ++ Q) ∧ (∀ e ∈ P, e.start < θ) ∧ (∀ e ∈ Q, θ ≤ e.start) ∧
      (readyLoop H θ (f + 1) s).active = s.active ++ P.map (applyEdit s.edits) ∧ (readyLoop H θ (f + 1) s).ready = Q ∧
      (readyLoop H θ (f + 1) s).edits = (fun id => if id ∈ ids P then none else s.edits id) ∧
      AM (readyLoop H θ (f + 1) s).amap (readyLoop H θ (f + 1) s).active ∧ (readyLoop H θ (f + 1) s).thr = s.thr ∧
      (readyLoop H θ (f + 1) s).past = s.past ∧ (readyLoop H θ (f + 1) s).time = s.time ∧ (readyLoop H θ (f + 1) s).sr = s.sr ∧
      (readyLoop H θ (f + 1) s).sd = s.sd ∧ (readyLoop H θ (f + 1) s).replay = s.replay := by
      intro h1 h2
      rw [h1]
      exact ⟨[], s.ready, List.Perm.refl _, by simp, h2, by simp, rfl, by simp [ids], ham, rfl, rfl, rfl, rfl, rfl, rfl⟩
    cases hp : H.pop s.ready with
    | none =>
      refine hstop (by simp only [readyLoop, hp]) ?_
      rw [(H.pop_none _).1 hp]; simp
    | some er =>
      obtain ⟨e, r⟩ := er
      have hperm := H.pop_perm _ _ _ hp
      have hmin := H.pop_min _ _ _ hp
      by_cases he : e.start < θ
      · have hstep : readyLoop H θ (f + 1) s = readyLoop H θ f { s with
            ready := r
            amap := Function.update s.amap e.id (some s.active.length)
            active := s.active ++ [applyEdit s.edits e]
            edits := Function.update s.edits e.id none } := by
          simp only [readyLoop, hp, he, if_true]
        have hapid : (applyEdit s.edits e).id = e.id := by unfold applyEdit; split <;> rfl
        have hn2 : (ids (s.active ++ e :: r)).Nodup := (((List.Perm.append_left _ hperm).map (fun e : Ev K U => e.id)).nodup_iff).1 hn
        have hnotin : e.id ∉ ids s.active ∧ e.id ∉ ids r := by
          rw [ids_append, List.nodup_append] at hn2
          obtain ⟨_, h2, h3⟩ := hn2
          refine ⟨fun h => h3 _ h _ (by simp [ids]) rfl, ?_⟩
          simp only [ids, List.map_cons, List.nodup_cons] at h2
          exact h2.1
        have ham' : AM (Function.update s.amap e.id (some s.active.length)) (s.active ++ [applyEdit s.edits e]) := by
          have := AM.push ham (e := applyEdit s.edits e) (by rw [hapid]; exact hnotin.1)
          rwa [hapid] at this
        obtain ⟨P, Q, h1, h2, h3, h4, h5, h6, h7, h8, h9, h10, h11, h12, h13⟩ := ih { s with
            ready := r
            amap := Function.update s.amap e.id (some s.active.length)
            active := s.active ++ [applyEdit s.edits e]
            edits := Function.update s.edits e.id none }
          (by have := hperm.length_eq; simp only [List.length_cons] at this ⊢; omega)
          (by
            show (ids ((s.active ++ [applyEdit s.edits e]) ++ r)).Nodup
            rw [List.append_assoc, ids_append]
            have : ids ([applyEdit s.edits e] ++ r) = ids (e :: r) := by simp [ids, hapid]
            rw [this, ← ids_append]; exact hn2) ham'
        rw [hstep]
        have hPids : ∀ y ∈ P, y.id ≠ e.id := by
          intro y hy h
          have : y ∈ r := h1.mem_iff.2 (List.mem_append_left _ hy)
          exact hnotin.2 (mem_ids.2 ⟨y, this, h⟩)
        have hap : P.map (applyEdit (Function.update s.edits e.id none)) = P.map (applyEdit s.edits) := by
          apply List.map_congr_left
          intro y hy
          unfold applyEdit
          rw [Function.update_of_ne (hPids y hy)]
        refine ⟨e :: P, Q, hperm.trans (h1.cons e), ?_, h3, ?_, h5, ?_, h7, h8, h9, h10, h11, h12, h13⟩
        · intro y hy
          rcases List.mem_cons.1 hy with rfl | hy
          · exact he
          · exact h2 y hy
        · rw [h4, hap]; simp
        · rw [h6]
          funext id
          by_cases hid : id = e.id
          · subst hid; simp [ids]
          · simp [ids, hid]
      · refine hstop (by simp only [readyLoop, hp, he, if_false]) ?_
        intro y hy
        exact le_trans (not_lt.1 he) (hmin y hy)

end Fundsp.Seq
