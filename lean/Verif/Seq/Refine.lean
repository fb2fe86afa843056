import Verif.Seq.Lemmas

/-! Refinement between the sequencer and its specification. -/

namespace Fundsp.Seq
variable {K : Type} [Field K] [LinearOrder K] [IsStrictOrderedRing K] [FloorRing K] {n : Nat} {B : Type}

/-- Relation between a sequencer and its specification. `beh` gives the observable behaviour of a unit. -/
structure Rel {U : Type} (beh : U → B) (s : Sq K U) (p : Sp K B) (gone : List (Ev K U)) : Prop where
  time : p.time = s.time
  sr : p.sr = s.sr
  sd : p.sd = s.sd
  replay : p.replay = s.replay
  sd_pos : 0 < s.sd
  sr_sd : s.sr * s.sd = 1
  thr : s.thr = none ∨ s.thr = some (s.time - s.sd / 2)
  act : ∀ e ∈ s.active, ∃ θ, s.thr = some θ ∧ e.start < θ
  rdy : ∀ e ∈ s.ready, ∀ θ, s.thr = some θ → θ ≤ e.start
  am : AM s.amap s.active
  nodup : (ids (s.active ++ s.ready ++ gone)).Nodup
  used : ∀ id ∈ ids (s.active ++ s.ready ++ gone), id ∈ p.used
  eused : ∀ id, s.edits id ≠ none → id ∈ p.used
  eact : ∀ e ∈ s.active, s.edits e.id = none
  egone : ∀ e ∈ gone, s.edits e.id = none
  over : ∀ e ∈ gone, e.endsBy (s.time - s.sd / 2) = true
  past : (s.replay = true → gone.Perm s.past) ∧ ∃ dropped, gone.Perm (dropped ++ s.past)
  perm : p.evs.Perm ((s.active ++ s.ready.map (applyEdit s.edits) ++ gone).map (Ev.map beh))

variable {U : Type} {beh : U → B}

omit [Field K] [LinearOrder K] [IsStrictOrderedRing K] [FloorRing K] in
theorem applyEdit_id (edits : Nat → Option (Option K × K)) (e : Ev K U) : (applyEdit edits e).id = e.id := by
  unfold applyEdit; split <;> rfl
omit [Field K] [LinearOrder K] [IsStrictOrderedRing K] [FloorRing K] in
theorem applyEdit_start (edits : Nat → Option (Option K × K)) (e : Ev K U) : (applyEdit edits e).start = e.start := by
  unfold applyEdit; split <;> rfl
omit [Field K] [LinearOrder K] [IsStrictOrderedRing K] [FloorRing K] in
theorem applyEdit_unit (edits : Nat → Option (Option K × K)) (e : Ev K U) : (applyEdit edits e).unit = e.unit := by
  unfold applyEdit; split <;> rfl
omit [Field K] [LinearOrder K] [IsStrictOrderedRing K] [FloorRing K] in
theorem applyEdit_none {edits : Nat → Option (Option K × K)} {e : Ev K U} (h : edits e.id = none) : applyEdit edits e = e := by
  unfold applyEdit; rw [h]

omit [IsStrictOrderedRing K] [FloorRing K] in
theorem endsBy_mono {e : Ev K U} {x y : K} (h : e.endsBy x = true) (hxy : x ≤ y) : e.endsBy y = true := by
  unfold Ev.endsBy at *
  split at h
  · exact h
  · exact decide_eq_true (le_trans (of_decide_eq_true h) hxy)

omit [IsStrictOrderedRing K] [FloorRing K] in
theorem endsBy_map {f : U → B} {e : Ev K U} {x : K} : (e.map f).endsBy x = e.endsBy x := rfl

/-- A new event, absolute time. -/
theorem Rel.push {s : Sq K U} {p : Sp K B} {gone} (h : Rel beh s p gone) (e : Ev K U) (hid : e.id ∉ p.used) :
    Rel beh (s.pushEvent e) (p.push (e.map beh)) gone := by
  have hne : e.id ∉ ids (s.active ++ s.ready ++ gone) := fun hm => hid (h.used _ hm)
  have hned : s.edits e.id = none := by
    by_contra hc; exact hid (h.eused _ hc)
  unfold Sq.pushEvent
  split
  · rename_i hb
    have hb' : ∃ θ, s.thr = some θ ∧ e.start < θ := by
      cases ht : s.thr with
      | none => rw [ht] at hb; simp [below] at hb
      | some θ => rw [ht] at hb; exact ⟨θ, rfl, by simpa [below] using hb⟩
    · obtain ⟨θ, ht, hlt⟩ := hb'
      have hperm : (s.active ++ [e] ++ s.ready ++ gone).Perm (e :: (s.active ++ s.ready ++ gone)) := by
        rw [List.append_assoc, List.append_assoc, List.append_assoc, List.singleton_append]
        exact List.perm_middle
      refine ⟨h.time, h.sr, h.sd, h.replay, h.sd_pos, h.sr_sd, h.thr, ?_, h.rdy, ?_, ?_, ?_, ?_, ?_, h.egone, h.over, h.past, ?_⟩
      · intro x hx
        rcases List.mem_append.1 hx with hx | hx
        · exact h.act x hx
        · rw [List.mem_singleton] at hx; subst hx; exact ⟨θ, ht, hlt⟩
      · exact AM.push h.am (fun hm => hne (by simp only [ids_append, List.mem_append]; exact .inl (.inl hm)))
      · exact ((hperm.map (fun e : Ev K U => e.id)).nodup_iff).2 (List.nodup_cons.2 ⟨hne, h.nodup⟩)
      · intro id hm
        have := (hperm.map (fun e : Ev K U => e.id)).mem_iff.1 hm
        rcases List.mem_cons.1 this with rfl | hm
        · exact List.mem_cons_self ..
        · exact List.mem_cons_of_mem _ (h.used _ hm)
      · intro id hm; exact List.mem_cons_of_mem _ (h.eused _ hm)
      · intro x hx
        rcases List.mem_append.1 hx with hx | hx
        · exact h.eact x hx
        · rw [List.mem_singleton] at hx; subst hx; exact hned
      · refine (h.perm.append_right _).trans ?_
        simp only [List.map_append, List.map_cons, List.map_nil]
        refine (List.perm_append_singleton _ _).trans ?_
        rw [List.append_assoc, List.append_assoc, List.append_assoc, List.singleton_append]
        exact List.perm_middle.symm
  · rename_i hb
    have hperm : (s.active ++ (s.ready ++ [e]) ++ gone).Perm (e :: (s.active ++ s.ready ++ gone)) := by
      rw [List.append_assoc, List.append_assoc, List.singleton_append, List.append_assoc, ← List.append_assoc s.active s.ready gone,
        ← List.append_assoc s.active s.ready (e :: gone)]
      exact List.perm_middle
    refine ⟨h.time, h.sr, h.sd, h.replay, h.sd_pos, h.sr_sd, h.thr, h.act, ?_, h.am, ?_, ?_, ?_, h.eact, h.egone, h.over, h.past, ?_⟩
    · intro x hx θ ht
      rcases List.mem_append.1 hx with hx | hx
      · exact h.rdy x hx θ ht
      · rw [List.mem_singleton] at hx; subst hx
        have ht' : s.thr = some θ := ht
        rw [ht'] at hb
        simpa [below] using hb
    · exact ((hperm.map (fun e : Ev K U => e.id)).nodup_iff).2 (List.nodup_cons.2 ⟨hne, h.nodup⟩)
    · intro id hm
      have := (hperm.map (fun e : Ev K U => e.id)).mem_iff.1 hm
      rcases List.mem_cons.1 this with rfl | hm
      · exact List.mem_cons_self ..
      · exact List.mem_cons_of_mem _ (h.used _ hm)
    · intro id hm; exact List.mem_cons_of_mem _ (h.eused _ hm)
    · refine (h.perm.append_right _).trans ?_
      simp only [List.map_append, List.map_cons, List.map_nil, applyEdit_none hned]
      refine (List.perm_append_singleton _ _).trans ?_
      rw [← List.append_assoc (List.map (Ev.map beh) s.active) _ [Ev.map beh e], List.append_assoc _ [Ev.map beh e], List.singleton_append]
      exact List.perm_middle.symm

theorem pushRelative_eq (setRate : K → U → U) (s : Sq K U) (e : Ev K U) :
    s.pushRelative setRate e = s.pushEvent ((e.rated setRate s.sr).shift s.time) := rfl

/-- The edit function of the specification on one event. -/
def editEv (id : Nat) (stop : Option K) (fo : K) (e : Ev K U) : Ev K U :=
  if e.id = id then { e with stop := stop, fadeOut := fo } else e

omit [IsStrictOrderedRing K] [FloorRing K] [LinearOrder K] [Field K] in
theorem editEv_map (id : Nat) (stop : Option K) (fo : K) (e : Ev K U) : editEv id stop fo (e.map beh) = (editEv id stop fo e).map beh := by
  unfold editEv
  split <;> rename_i h
  · rw [if_pos (show e.id = id from h)]; rfl
  · rw [if_neg (show ¬ e.id = id from h)]

omit [IsStrictOrderedRing K] [FloorRing K] [LinearOrder K] [Field K] in
theorem editEv_map_id (id : Nat) (stop : Option K) (fo : K) (l : List (Ev K U)) (h : id ∉ l.map (·.id)) : l.map (editEv id stop fo) = l := by
  conv_rhs => rw [← List.map_id l]
  apply List.map_congr_left
  intro e he
  unfold editEv
  rw [if_neg]; rfl
  intro hc
  exact h (List.mem_map.2 ⟨e, he, hc⟩)

theorem ids_edit (id : Nat) (stop : Option K) (fo : K) (l : List (Ev K U)) : ids (l.map (editEv id stop fo)) = ids l := by
  unfold ids
  rw [List.map_map]
  apply List.map_congr_left
  intro e _
  simp only [Function.comp, editEv]
  split <;> rfl

theorem modify_editEv {l : List (Ev K U)} (hn : (ids l).Nodup) {i : Nat} {id : Nat} (hi : (l[i]?).map (·.id) = some id) (stop : Option K)
    (fo : K) : l.modify i (fun e => { e with stop := stop, fadeOut := fo }) = l.map (editEv id stop fo) := by
  apply List.ext_getElem?
  intro j
  rw [List.getElem?_modify, List.getElem?_map]
  by_cases hij : i = j
  · subst hij
    cases hl : l[i]? with
    | none => rw [hl] at hi; simp at hi
    | some e =>
      rw [hl] at hi
      simp only [Option.map_some, Option.some.injEq] at hi
      simp [editEv, hi]
  · simp only [hij, if_false]
    cases hl : l[j]? with
    | none => simp
    | some e =>
      have hne : e.id ≠ id := by
        intro hc
        exact hij (ids_inj hn hi (by rw [hl]; simp [hc]))
      simp [editEv, hne]

/-- An edit. -/
theorem Rel.edit {s : Sq K U} {p : Sp K B} {gone} (h : Rel beh s p gone) (id : Nat) (stop : Option K) (fo : K) (hok : EditOk p id stop) :
    Rel beh (s.edit id stop fo) (p.edit id stop fo) gone := by
  have hfun : (fun e : Ev K B => if e.id = id then { e with stop := stop, fadeOut := fo } else e) = editEv id stop fo := rfl
  have hokU : ∀ x ∈ s.active ++ s.ready.map (applyEdit s.edits) ++ gone, x.id = id → ¬ x.endsBy (s.time - s.sd / 2) ∧
      (x.start < s.time - s.sd / 2 ∨ ∀ y, stop = some y → s.time - s.sd / 2 ≤ y) := by
    intro x hx hid
    have := hok (x.map beh) (h.perm.mem_iff.2 (List.mem_map_of_mem hx)) hid
    rw [h.time, h.sd] at this
    exact this
  have hgone : id ∉ ids gone := by
    intro hm
    obtain ⟨e, he, hid⟩ := mem_ids.1 hm
    exact (hokU e (List.mem_append_right _ he) hid).1 (h.over e he)
  have hpermE : (p.evs.map (editEv id stop fo)).Perm
      ((s.active.map (editEv id stop fo) ++ (s.ready.map (applyEdit s.edits)).map (editEv id stop fo) ++ gone).map (Ev.map beh)) := by
    refine (h.perm.map _).trans ?_
    rw [List.map_map]
    have : editEv id stop fo ∘ Ev.map beh = Ev.map (K := K) beh ∘ editEv id stop fo := funext fun e => editEv_map id stop fo e
    rw [this, ← List.map_map]
    simp only [List.map_append]
    rw [editEv_map_id id stop fo gone hgone]
  have hsub : ∀ {l : List (Ev K U)}, l.Sublist (s.active ++ s.ready ++ gone) → (ids l).Nodup := fun hl => h.nodup.sublist (hl.map _)
  have hnA : (ids s.active).Nodup := hsub ((List.sublist_append_left _ _).trans (List.sublist_append_left _ _))
  unfold Sq.edit
  cases hm : s.amap id with
  | some i =>
    have hi := (h.am id i).1 hm
    have hin : id ∈ ids s.active := by
      obtain ⟨e, he, hid⟩ := Option.map_eq_some_iff.1 hi
      exact mem_ids.2 ⟨e, List.mem_of_getElem? he, hid⟩
    have hnR : id ∉ ids s.ready := by
      intro hr
      have h2 := h.nodup
      rw [ids_append, ids_append] at h2
      exact (List.nodup_append.1 (List.nodup_append.1 h2).1).2.2 _ hin _ hr rfl
    simp only
    rw [modify_editEv hnA hi]
    refine ⟨h.time, h.sr, h.sd, h.replay, h.sd_pos, h.sr_sd, h.thr, ?_, h.rdy, ?_, ?_, ?_, ?_, ?_, h.egone, h.over, h.past, ?_⟩
    · intro x hx
      obtain ⟨y, hy, rfl⟩ := List.mem_map.1 hx
      obtain ⟨θ, a, b⟩ := h.act y hy
      refine ⟨θ, a, ?_⟩
      unfold editEv; split <;> exact b
    · exact h.am.congr (ids_edit ..).symm
    · show (ids (s.active.map (editEv id stop fo) ++ s.ready ++ gone)).Nodup
      rw [ids_append, ids_append, ids_edit, ← ids_append, ← ids_append]; exact h.nodup
    · intro y hy
      have hy' : y ∈ ids (s.active.map (editEv id stop fo) ++ s.ready ++ gone) := hy
      rw [ids_append, ids_append, ids_edit, ← ids_append, ← ids_append] at hy'
      exact List.mem_cons_of_mem _ (h.used y hy')
    · intro y hy; exact List.mem_cons_of_mem _ (h.eused y hy)
    · intro x hx
      obtain ⟨y, hy, rfl⟩ := List.mem_map.1 hx
      have := h.eact y hy
      show s.edits (editEv id stop fo y).id = none
      unfold editEv; split <;> exact this
    · show (p.evs.map (editEv id stop fo)).Perm ((s.active.map (editEv id stop fo) ++ s.ready.map (applyEdit s.edits) ++ gone).map (Ev.map beh))
      refine hpermE.trans ?_
      rw [editEv_map_id id stop fo (s.ready.map (applyEdit s.edits))]
      rw [List.map_map]
      intro hc
      obtain ⟨e, he, hid⟩ := List.mem_map.1 hc
      exact hnR (mem_ids.2 ⟨e, he, (applyEdit_id _ _).symm.trans hid⟩)
  | none =>
    have hnA' : id ∉ ids s.active := by
      intro hc
      obtain ⟨e, he, hid⟩ := mem_ids.1 hc
      obtain ⟨i, hi⟩ := List.getElem?_of_mem he
      have := (h.am id i).2 (by rw [hi]; simp [hid])
      rw [hm] at this; simp at this
    simp only
    split
    · rename_i hb
      -- the edit is ignored: then the event is not there at all
      have hnR : id ∉ ids s.ready := by
        intro hc
        obtain ⟨e, he, hid⟩ := mem_ids.1 hc
        cases hst : stop with
        | none => rw [hst] at hb; simp [stopBelow] at hb
        | some y =>
          cases ht : s.thr with
          | none => rw [hst, ht] at hb; simp [stopBelow, below] at hb
          | some θ =>
            rw [hst, ht] at hb
            have hy : y < θ := by simpa [stopBelow, below] using hb
            rcases h.thr with h0 | h0
            · rw [ht] at h0; simp at h0
            · rw [ht] at h0
              obtain rfl := Option.some.inj h0
              have h1 := h.rdy e he _ ht
              rcases (hokU (applyEdit s.edits e) (List.mem_append_left _ (List.mem_append_right _ (List.mem_map_of_mem he)))
                ((applyEdit_id _ _).trans hid)).2 with h2 | h2
              · rw [applyEdit_start] at h2; exact absurd h1 (not_le.2 h2)
              · exact absurd (h2 y hst) (not_le.2 hy)
      refine ⟨h.time, h.sr, h.sd, h.replay, h.sd_pos, h.sr_sd, h.thr, h.act, h.rdy, h.am, h.nodup, ?_, ?_, h.eact, h.egone, h.over, h.past, ?_⟩
      · intro y hy; exact List.mem_cons_of_mem _ (h.used y hy)
      · intro y hy; exact List.mem_cons_of_mem _ (h.eused y hy)
      · show (p.evs.map (editEv id stop fo)).Perm _
        refine hpermE.trans ?_
        rw [editEv_map_id id stop fo s.active hnA', editEv_map_id id stop fo (s.ready.map (applyEdit s.edits))]
        rw [List.map_map]
        intro hc
        obtain ⟨e, he, hid⟩ := List.mem_map.1 hc
        exact hnR (mem_ids.2 ⟨e, he, (applyEdit_id _ _).symm.trans hid⟩)
    · refine ⟨h.time, h.sr, h.sd, h.replay, h.sd_pos, h.sr_sd, h.thr, h.act, h.rdy, h.am, h.nodup, ?_, ?_, ?_, ?_, h.over, h.past, ?_⟩
      · intro y hy; exact List.mem_cons_of_mem _ (h.used y hy)
      · intro y hy
        by_cases hyi : y = id
        · subst hyi; exact List.mem_cons_self ..
        · have hy' : Function.update s.edits id (some (stop, fo)) y ≠ none := hy
          rw [Function.update_of_ne hyi] at hy'
          exact List.mem_cons_of_mem _ (h.eused y hy')
      · intro e he
        show Function.update s.edits id (some (stop, fo)) e.id = none
        rw [Function.update_of_ne (fun hc => hnA' (mem_ids.2 ⟨e, he, hc⟩))]
        exact h.eact e he
      · intro e he
        show Function.update s.edits id (some (stop, fo)) e.id = none
        rw [Function.update_of_ne (fun hc => hgone (mem_ids.2 ⟨e, he, hc⟩))]
        exact h.egone e he
      · show (p.evs.map (editEv id stop fo)).Perm ((s.active ++ s.ready.map (applyEdit (Function.update s.edits id (some (stop, fo)))) ++ gone).map _)
        refine hpermE.trans ?_
        rw [editEv_map_id id stop fo s.active hnA', List.map_map]
        have : (editEv id stop fo ∘ applyEdit s.edits : Ev K U → Ev K U) = applyEdit (Function.update s.edits id (some (stop, fo))) := by
          funext e
          simp only [Function.comp, editEv, applyEdit_id]
          by_cases hid : e.id = id
          · subst hid
            rw [if_pos rfl]
            unfold applyEdit
            rw [Function.update_self]
            split <;> rfl
          · rw [if_neg hid]
            unfold applyEdit
            rw [Function.update_of_ne hid]
        rw [this]

theorem editRelative_eq (s : Sq K U) (id : Nat) (stop : Option K) (fo : K) :
    s.editRelative id stop fo = s.edit id (stop.map (s.time + ·)) fo := by
  unfold Sq.editRelative Sq.edit
  cases s.amap id with
  | some i => rfl
  | none => rfl

/-- A reset. -/
theorem Rel.reset {s : Sq K U} {p : Sp K B} {gone} (h : Rel beh s p gone) (reset : U → U) (resetB : B → B)
    (hr : ∀ u, resetB (beh u) = beh (reset u)) :
    Rel beh (s.reset reset) (p.reset resetB) [] := by
  unfold Sq.reset
  cases hre : s.replay with
  | false =>
    simp only [Bool.false_eq_true, if_false]
    refine ⟨rfl, h.sr, h.sd, h.replay.trans hre, h.sd_pos, h.sr_sd, .inl rfl, by simp, by simp, ?_, by simp [ids], by simp [ids], by simp,
      by simp, by simp, by simp, by simp, ?_⟩
    · intro id i; simp
    · simp [Sp.reset, h.replay, hre]
  | true =>
    simp only [if_true]
    have hgp := h.past.1 hre
    have hids : ∀ l : List (Ev K U), ids (l.map fun e => { e with unit := reset e.unit }) = ids l := by
      intro l; simp [ids, Function.comp_def]
    have hpp : (ids (s.active ++ s.ready ++ s.past)).Perm (ids (s.active ++ s.ready ++ gone)) :=
      (List.Perm.append_left _ hgp.symm).map _
    refine ⟨rfl, h.sr, h.sd, h.replay.trans hre, h.sd_pos, h.sr_sd, .inl rfl, by simp, by simp, ?_, ?_, ?_, h.eused, by simp, by simp, by simp,
      by simp, ?_⟩
    · intro id i; simp
    · simp only [List.nil_append, List.append_nil]
      rw [hids]; exact hpp.nodup_iff.2 h.nodup
    · intro id hm
      simp only [List.nil_append, List.append_nil] at hm
      rw [hids] at hm
      exact h.used id (hpp.mem_iff.1 hm)
    · simp only [Sp.reset, h.replay, hre, if_true, List.nil_append, List.append_nil]
      refine (h.perm.map _).trans ?_
      rw [List.map_map, List.map_map, List.map_map]
      have e1 : ((fun e : Ev K B => { e with unit := resetB e.unit }) ∘ Ev.map beh) =
          (Ev.map beh ∘ fun e : Ev K U => { e with unit := reset e.unit }) := by
        funext e; simp [Ev.map, hr]
      have e2 : ((Ev.map beh ∘ applyEdit s.edits) ∘ fun e : Ev K U => { e with unit := reset e.unit }) =
          ((Ev.map beh ∘ fun e : Ev K U => { e with unit := reset e.unit }) ∘ applyEdit s.edits) := by
        funext e
        simp only [Function.comp, applyEdit]
        cases s.edits e.id <;> rfl
      rw [e1, e2, ← List.map_map (g := Ev.map beh ∘ _) (f := applyEdit s.edits)]
      refine List.Perm.map _ ?_
      simp only [List.map_append]
      have ea : s.active.map (applyEdit s.edits) = s.active := by
        conv_rhs => rw [← List.map_id s.active]
        exact List.map_congr_left fun e he => applyEdit_none (h.eact e he)
      have eg : gone.map (applyEdit s.edits) = gone := by
        conv_rhs => rw [← List.map_id gone]
        exact List.map_congr_left fun e he => applyEdit_none (h.egone e he)
      rw [ea]
      refine List.Perm.append_left _ ?_
      rw [← eg]
      exact hgp.map _

/-- Playing from time `s.time` to `t1`: the events fall into those that are played (`P`), those found to be over (`Q`), those still to come (`R`)
and those long over (`gone`). -/
theorem Rel.play {A : Type} {s : Sq K U} {p : Sp K B} {gone} (h : Rel beh s p gone) (H : Heap K U) (t1 : K) (h1 : s.time + s.sd ≤ t1)
    (play : Ev K U → A → Ev K U × A) (hid : ∀ e a, (play e a).1.id = e.id) (hst : ∀ e a, (play e a).1.start = e.start) (a : A) :
    ∃ P Q R : List (Ev K U), p.evs.Perm ((P ++ Q ++ R ++ gone).map (Ev.map beh)) ∧
      (∀ e ∈ P, e.start < t1 - s.sd / 2 ∧ e.endsBy (s.time + s.sd / 2) = false) ∧
      (∀ e ∈ Q, e.endsBy (s.time + s.sd / 2) = true) ∧ (∀ e ∈ R, t1 - s.sd / 2 ≤ e.start) ∧
      (∀ e ∈ gone, e.endsBy (s.time - s.sd / 2) = true) ∧
      (let s0 := if s.replay then s else { s with past := [] }
       let s1 := s0.readyToActive H t1
       let l := evLoop (s1.time + 1 / 2 * s1.sd) play s1.active.length 0 ⟨s1.active, s1.amap, s1.past, a⟩
       s1.time = s.time ∧ s1.sr = s.sr ∧ s1.sd = s.sd ∧
       l.acc = (mapAcc play P a).2 ∧
       ∀ p' : Sp K B, p'.time = t1 → p'.sr = p.sr → p'.sd = p.sd → p'.replay = p.replay → p'.used = p.used →
         p'.evs.Perm (((mapAcc play P a).1 ++ R ++ (gone ++ Q)).map (Ev.map beh)) →
         Rel beh { s1 with active := l.active, amap := l.amap, past := l.past, time := t1 } p' (gone ++ Q)) := by
  have hmapAcc : ∀ (P : List (Ev K U)) (a : A), ids (mapAcc play P a).1 = ids P := by
    intro P
    induction P with
    | nil => intro a; rfl
    | cons e P ih => intro a; simp only [mapAcc, ids, List.map_cons, hid]; exact congrArg _ (ih _)
  have hmapAccS : ∀ (P : List (Ev K U)) (a : A) (x : K), (∀ e ∈ P, e.start < x) → ∀ e ∈ (mapAcc play P a).1, e.start < x := by
    intro P
    induction P with
    | nil => intro a x _ e he; simp [mapAcc] at he
    | cons y P ih =>
      intro a x hP e he
      simp only [mapAcc, List.mem_cons] at he
      rcases he with rfl | he
      · rw [hst]; exact hP y (List.mem_cons_self ..)
      · exact ih _ x (fun z hz => hP z (List.mem_cons_of_mem _ hz)) e he
  have hs0 : ∀ q, (if s.replay then s else { s with past := [] }) = { s with past := q } ∧ (s.replay = true → q = s.past) →
    ∃ P Q R : List (Ev K U), p.evs.Perm ((P ++ Q ++ R ++ gone).map (Ev.map beh)) ∧
      (∀ e ∈ P, e.start < t1 - s.sd / 2 ∧ e.endsBy (s.time + s.sd / 2) = false) ∧
      (∀ e ∈ Q, e.endsBy (s.time + s.sd / 2) = true) ∧ (∀ e ∈ R, t1 - s.sd / 2 ≤ e.start) ∧
      (∀ e ∈ gone, e.endsBy (s.time - s.sd / 2) = true) ∧
      (let s0 := if s.replay then s else { s with past := [] }
       let s1 := s0.readyToActive H t1
       let l := evLoop (s1.time + 1 / 2 * s1.sd) play s1.active.length 0 ⟨s1.active, s1.amap, s1.past, a⟩
       s1.time = s.time ∧ s1.sr = s.sr ∧ s1.sd = s.sd ∧
       l.acc = (mapAcc play P a).2 ∧
       ∀ p' : Sp K B, p'.time = t1 → p'.sr = p.sr → p'.sd = p.sd → p'.replay = p.replay → p'.used = p.used →
         p'.evs.Perm (((mapAcc play P a).1 ++ R ++ (gone ++ Q)).map (Ev.map beh)) →
         Rel beh { s1 with active := l.active, amap := l.amap, past := l.past, time := t1 } p' (gone ++ Q)) := by
    rintro q ⟨hq, hqp⟩
    have hnAR : (ids (s.active ++ s.ready)).Nodup := h.nodup.sublist ((List.sublist_append_left _ _).map _)
    obtain ⟨P1, R, r1, r2, r3, r4, r5, r6, r7, r8, r9, r10, r11, r12, r13⟩ := readyLoop_spec H (t1 - s.sd * (1 / 2)) s.ready.length
      { s with past := q, thr := some (t1 - s.sd * (1 / 2)) } (Nat.le_refl _) hnAR h.am
    simp only at r1 r4 r6 r8 r9 r10 r11 r12 r13
    have hread : ({ s with past := q } : Sq K U).readyToActive H t1 = readyLoop H (t1 - s.sd * (1 / 2)) s.ready.length
      { s with past := q, thr := some (t1 - s.sd * (1 / 2)) } := rfl
    rw [hq]
    simp only [hread]
    generalize readyLoop H (t1 - s.sd * (1 / 2)) s.ready.length { s with past := q, thr := some (t1 - s.sd * (1 / 2)) } = s1 at *
    have hhalf : s.sd * (1 / 2) = s.sd / 2 := by ring
    rw [hhalf] at r2 r3 r8
    have hx : s1.time + 1 / 2 * s1.sd = s.time + s.sd / 2 := by rw [r10, r12]; ring
    rw [hx]
    have hap : ids (P1.map (applyEdit s.edits)) = ids P1 := by
      simp only [ids, List.map_map]; exact List.map_congr_left fun e _ => applyEdit_id _ _
    have hnA1 : (ids s1.active).Nodup := by
      rw [r4, ids_append, hap, ← ids_append]
      have : (ids (s.active ++ (P1 ++ R))).Nodup := ((List.Perm.append_left _ r1).map (fun e : Ev K U => e.id)).nodup_iff.1 hnAR
      rw [← List.append_assoc] at this
      exact this.sublist ((List.sublist_append_left _ _).map _)
    obtain ⟨P, Q, e1, e2, e3, e4, e5, e6, e7⟩ := evLoop_spec (s.time + s.sd / 2) play hid s1.active.length 0
      ⟨s1.active, s1.amap, s1.past, a⟩ (by simp) hnA1 r7
    simp only [List.drop_zero, List.take_zero, List.nil_append] at e1 e4 e5 e6 e7
    have hRap : R.map (applyEdit s.edits) = R.map (applyEdit s1.edits) := by
      apply List.map_congr_left
      intro e he
      have hnot : e.id ∉ ids P1 := by
        intro hc
        have : (ids (P1 ++ R)).Nodup := ((r1.map (fun e : Ev K U => e.id)).nodup_iff).1
          (hnAR.sublist ((List.sublist_append_right _ _).map _))
        rw [ids_append] at this
        exact (List.nodup_append.1 this).2.2 _ hc _ (mem_ids.2 ⟨e, he, rfl⟩) rfl
      unfold applyEdit
      rw [r6]; simp [hnot]
    have hact1 : ∀ e ∈ s1.active, e.start < t1 - s.sd / 2 := by
      rw [r4]
      intro e he
      rcases List.mem_append.1 he with he | he
      · obtain ⟨θ, hθ, hlt⟩ := h.act e he
        rcases h.thr with h0 | h0
        · rw [hθ] at h0; simp at h0
        · rw [hθ] at h0
          obtain rfl := Option.some.inj h0
          have := h.sd_pos
          linarith
      · obtain ⟨y, hy, rfl⟩ := List.mem_map.1 he
        rw [applyEdit_start]; exact r2 y hy
    have hRids : ids (R.map (applyEdit s1.edits)) = ids R := by
      simp only [ids, List.map_map]; exact List.map_congr_left fun e _ => applyEdit_id _ _
    have hpermU : (s.active ++ s.ready.map (applyEdit s.edits) ++ gone).Perm (P ++ Q ++ R.map (applyEdit s1.edits) ++ gone) := by
      refine List.Perm.append_right _ ?_
      refine (List.Perm.append_left _ (r1.map _)).trans ?_
      rw [List.map_append, ← List.append_assoc, ← r4, hRap]
      exact e1.append_right _
    have hidsU : (ids (s.active ++ s.ready ++ gone)).Perm (ids (P ++ Q ++ R ++ gone)) := by
      have := hpermU.map (fun e : Ev K U => e.id)
      have ha : ids (s.ready.map (applyEdit s.edits)) = ids s.ready := by
        simp only [ids, List.map_map]; exact List.map_congr_left fun e _ => applyEdit_id _ _
      change (ids _).Perm (ids _) at this
      simp only [ids_append, ha, hRids] at this ⊢
      exact this
    have hidsF : (ids (s.active ++ s.ready ++ gone)).Perm (ids ((mapAcc play P a).1 ++ R ++ (gone ++ Q))) := by
      refine hidsU.trans ?_
      simp only [ids_append, hmapAcc, List.append_assoc]
      refine List.Perm.append_left _ ?_
      refine List.perm_append_comm.trans ?_
      simp only [List.append_assoc]; exact List.Perm.refl _
    refine ⟨P, Q, R.map (applyEdit s1.edits), ?_, ?_, e3, ?_, h.over, r10, r11, r12, e5, ?_⟩
    · exact h.perm.trans (hpermU.map _)
    · intro e he
      exact ⟨hact1 e (e1.mem_iff.2 (List.mem_append_left _ he)), e2 e he⟩
    · intro e he
      obtain ⟨y, hy, rfl⟩ := List.mem_map.1 he
      rw [applyEdit_start]; exact r3 y hy
    · intro p' t1' t2' t3' t4' t5' t6'
      have hedit1 : ∀ id, s1.edits id ≠ none → s.edits id ≠ none := by
        intro id hne hc
        rw [r6] at hne
        simp only at hne
        split at hne
        · exact hne rfl
        · exact hne hc
      have hedact : ∀ e ∈ s1.active, s1.edits e.id = none := by
        rw [r4]
        intro e he
        rw [r6]
        simp only
        rcases List.mem_append.1 he with he | he
        · split
          · rfl
          · exact h.eact e he
        · obtain ⟨y, hy, rfl⟩ := List.mem_map.1 he
          rw [if_pos (by rw [applyEdit_id]; exact mem_ids.2 ⟨y, hy, rfl⟩)]
      refine ⟨t1', t2'.trans (h.sr.trans r11.symm), t3'.trans (h.sd.trans r12.symm), t4'.trans (h.replay.trans r13.symm), ?_, ?_, .inr ?_, ?_, ?_, ?_, ?_,
        ?_, ?_, ?_, ?_, ?_, ?_, ?_⟩
      · show 0 < s1.sd; rw [r12]; exact h.sd_pos
      · show s1.sr * s1.sd = 1; rw [r11, r12]; exact h.sr_sd
      · show s1.thr = some (t1 - s1.sd / 2); rw [r8, r12]
      · intro e he
        refine ⟨t1 - s.sd / 2, r8, ?_⟩
        have he' : e ∈ (mapAcc play P a).1 := by rw [← e4]; exact he
        exact hmapAccS P a _ (fun e he => hact1 e (e1.mem_iff.2 (List.mem_append_left _ he))) e he'
      · intro e he θ hθ
        have hθ' : s1.thr = some θ := hθ
        rw [r8] at hθ'
        obtain rfl := Option.some.inj hθ'
        have he' : e ∈ s1.ready := he
        rw [r5] at he'
        exact r3 e he'
      · exact e7
      · simp only [e4, r5]
        exact hidsF.nodup_iff.1 h.nodup
      · intro id hm
        simp only [e4, r5] at hm
        rw [t5']
        exact h.used id (hidsF.mem_iff.2 hm)
      · intro id hne
        rw [t5']
        exact h.eused id (hedit1 id hne)
      · intro e he
        have he' : e ∈ (mapAcc play P a).1 := by rw [← e4]; exact he
        have hm : e.id ∈ ids P := by rw [← hmapAcc P a]; exact mem_ids.2 ⟨e, he', rfl⟩
        obtain ⟨y, hy, hyid⟩ := mem_ids.1 hm
        show s1.edits e.id = none
        rw [← hyid]
        exact hedact y (e1.mem_iff.2 (List.mem_append_left _ hy))
      · intro e he
        rcases List.mem_append.1 he with he | he
        · show s1.edits e.id = none
          by_contra hc
          exact hedit1 _ hc (h.egone e he)
        · exact hedact e (e1.mem_iff.2 (List.mem_append_right _ he))
      · intro e he
        show e.endsBy (t1 - s1.sd / 2) = true
        rw [r12]
        have := h.sd_pos
        rcases List.mem_append.1 he with he | he
        · exact endsBy_mono (h.over e he) (by linarith)
        · exact endsBy_mono (e3 e he) (by linarith)
      · have hl : ∀ l : List (Ev K U), gone.Perm (l ++ q) → (gone ++ Q).Perm (l ++ (s1.past ++ Q)) := by
          intro l hp
          rw [r9, ← List.append_assoc]
          exact hp.append_right Q
        have hl6 : (evLoop (s.time + s.sd / 2) play s1.active.length 0 ⟨s1.active, s1.amap, s1.past, a⟩).past = s1.past ++ Q := e6
        refine ⟨fun hre => ?_, ?_⟩
        · have hre' : s.replay = true := by
            have : s1.replay = true := hre
            rw [r13] at this; exact this
          show (gone ++ Q).Perm (evLoop _ _ _ _ _).past
          rw [hl6]
          refine hl [] ?_
          rw [hqp hre', List.nil_append]
          exact h.past.1 hre'
        · show ∃ dropped, (gone ++ Q).Perm (dropped ++ (evLoop _ _ _ _ _).past)
          rw [hl6]
          cases hre : s.replay with
          | true =>
            refine ⟨[], hl [] ?_⟩
            rw [hqp hre, List.nil_append]
            exact h.past.1 hre
          | false =>
            refine ⟨gone, hl gone ?_⟩
            have : q = [] := by
              have := congrArg Sq.past hq
              rw [hre] at this
              exact this.symm
            rw [this, List.append_nil]
      · simp only [e4, r5]
        exact t6'
  cases hre : s.replay with
  | true =>
    have := hs0 s.past ⟨if_pos hre, fun _ => rfl⟩
    simpa only [hre] using this
  | false =>
    have := hs0 [] ⟨if_neg (by simp [hre]), fun hc => by rw [hre] at hc; simp at hc⟩
    simpa only [hre] using this

end Fundsp.Seq
