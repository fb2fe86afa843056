import Verif.Wave.Lemmas
import Mathlib.Tactic.NormNum
import Mathlib.Data.Rat.Defs

/-!
# Waves: property C57
-/

noncomputable section
namespace Fundsp.Wv

variable {α : Type}

/-! ## Consistency under edits -/

/-- The edits of a wave. -/
inductive Edit (α : Type) where
  | set (channel index : Nat) (value : α)
  | mix (channel index : Nat) (value : α)
  | pushChannel (samples : List α)
  | insertChannel (channel : Nat) (samples : List α)
  | mixChannel (channel : Nat) (offset : Int) (samples : List α)
  | removeChannel (channel : Nat)
  | append (source : Wave α)
  | push (frame : List α)
  | resize (length : Nat)
  | retain (start : Int) (length : Nat)

/-- Performs an edit. -/
def Edit.apply [Zero α] [Add α] : Edit α → Wave α → Option (Wave α)
  | .set c i v, w => w.set c i v
  | .mix c i v, w => w.mix c i v
  | .pushChannel l, w => w.pushChannel l
  | .insertChannel c l, w => w.insertChannel c l
  | .mixChannel c o l, w => w.mixChannel c o l
  | .removeChannel c, w => (w.removeChannel c).map (·.1)
  | .append s, w => w.append s
  | .push f, w => w.push f
  | .resize n, w => w.resize n
  | .retain s n, w => w.retain s n

/-- Waves that a program can make. -/
inductive Made [Zero α] [Add α] : Wave α → Prop
  | new (channels : Nat) (rate : ℝ) : Made (.new channels rate)
  | zero {channels : Nat} {rate : ℝ} {length : Nat} {w} (h : Wave.zero channels rate length = some w) : Made w
  | fromSamples (rate : ℝ) (samples : List α) : Made (.fromSamples rate samples)
  | edit {w w' : Wave α} (e : Edit α) (h : Made w) (he : e.apply w = some w') : Made w'

theorem set_shape {w w' : Wave α} {c i : Nat} {v : α} (h : w.set c i v = some w') : w'.vec.map List.length = w.vec.map List.length ∧ w'.len = w.len ∧ w'.rate = w.rate := by
  unfold Wave.set at h
  cases hv : w.vec[c]? with
  | none => rw [hv] at h; cases h
  | some l =>
    rw [hv] at h
    simp only [Option.bind_some] at h
    split at h
    · cases h
      refine ⟨?_, rfl, rfl⟩
      show (w.vec.set c (l.set i v)).map List.length = _
      rw [List.map_set, List.length_set]
      apply List.ext_getElem?
      intro j
      rw [List.getElem?_set]
      by_cases hj : c = j
      · subst hj
        rw [if_pos rfl]
        have hc := (List.getElem?_eq_some_iff.1 hv).1
        rw [if_pos (by rw [List.length_map]; exact hc), List.getElem?_map, hv]; rfl
      · rw [if_neg hj]
    · cases h

theorem mix_shape [Add α] {w w' : Wave α} {c i : Nat} {v : α} (h : w.mix c i v = some w') : w'.vec.map List.length = w.vec.map List.length ∧ w'.len = w.len ∧ w'.rate = w.rate := by
  unfold Wave.mix at h
  cases hx : w.at? c i with
  | none => rw [hx] at h; cases h
  | some x => rw [hx] at h; exact set_shape h

/-- Consistency depends on the lengths only. -/
theorem wf_of_shape {w w' : Wave α} (h : w'.vec.map List.length = w.vec.map List.length ∧ w'.len = w.len ∧ w'.rate = w.rate) (hw : w.Wf) : w'.Wf := by
  obtain ⟨h1, h2, -⟩ := h
  constructor
  · intro v hv
    rw [h2]
    have : v.length ∈ w.vec.map List.length := by rw [← h1]; exact List.mem_map_of_mem hv
    obtain ⟨u, hu, he⟩ := List.mem_map.1 this
    rw [← he]; exact hw.1 u hu
  · intro he
    rw [h2]; apply hw.2
    rw [he] at h1
    simpa using h1.symm

theorem mixChannel_shape [Add α] {w w' : Wave α} {c : Nat} {o : Int} {l : List α} (h : w.mixChannel c o l = some w') : w'.vec.map List.length = w.vec.map List.length ∧ w'.len = w.len ∧ w'.rate = w.rate := by
  unfold Wave.mixChannel at h
  refine forRange_inv (P := fun x => x.vec.map List.length = w.vec.map List.length ∧ x.len = w.len ∧ x.rate = w.rate) ?_ ⟨rfl, rfl, rfl⟩ h
  intro i x y hx hf
  cases hl : l[((i : Int) - o).toNat]? with
  | none => rw [hl] at hf; cases hf
  | some z =>
    rw [hl] at hf
    obtain ⟨a, b, c⟩ := mix_shape hf
    exact ⟨a.trans hx.1, b.trans hx.2.1, c.trans hx.2.2⟩

theorem resize_wf [Zero α] {w w' : Wave α} {n : Nat} (hw : w.Wf) (h : w.resize n = some w') : w'.Wf := by
  unfold Wave.resize at h
  split at h
  · rename_i hc
    cases h
    constructor
    · intro v hv
      show v.length = n
      have hv : v ∈ (if n ≠ w.len then w.vec.map (resizeList n) else w.vec) := hv
      split at hv
      · obtain ⟨u, -, rfl⟩ := List.mem_map.1 hv
        unfold resizeList
        simp only [List.length_append, List.length_take, List.length_replicate]
        omega
      · rename_i hn
        rw [hw.1 v hv]; exact (not_not.1 hn).symm
    · intro he
      exfalso
      have he : (if n ≠ w.len then w.vec.map (resizeList n) else w.vec) = [] := he
      have : w.vec = [] := by
        split at he
        · simpa using he
        · exact he
      unfold Wave.channels at hc
      rw [this] at hc; simp at hc
  · cases h

theorem apply_wf [Zero α] [Add α] {e : Edit α} {w w' : Wave α} (hw : w.Wf) (h : e.apply w = some w') : w'.Wf := by
  cases e with
  | set c i v => exact wf_of_shape (set_shape h) hw
  | mix c i v => exact wf_of_shape (mix_shape h) hw
  | mixChannel c o l => exact wf_of_shape (mixChannel_shape h) hw
  | resize n => exact resize_wf hw h
  | pushChannel l =>
    have h : w.pushChannel l = some w' := h
    unfold Wave.pushChannel at h
    split at h
    · rename_i hc
      cases h
      constructor
      · intro v hv
        show v.length = if w.channels = 0 then l.length else w.len
        rcases List.mem_append.1 hv with hv | hv
        · rw [if_neg (by intro h0; unfold Wave.channels at h0; rw [List.eq_nil_of_length_eq_zero h0] at hv; cases hv)]
          exact hw.1 v hv
        · rw [List.mem_singleton.1 hv]
          split
          · rfl
          · rename_i h0; exact (hc.resolve_left h0).symm
      · intro he
        have he : w.vec ++ [l] = [] := he
        simp at he
    · cases h
  | insertChannel c l =>
    have h : w.insertChannel c l = some w' := h
    unfold Wave.insertChannel at h
    split at h
    · rename_i hc
      cases h
      constructor
      · intro v hv
        show v.length = if w.channels = 0 then l.length else w.len
        have hv : v ∈ w.vec.take c ++ l :: w.vec.drop c := hv
        have hor : v ∈ w.vec ∨ v = l := by
          rcases List.mem_append.1 hv with hv | hv
          · left; exact List.mem_of_mem_take hv
          · rcases List.mem_cons.1 hv with hv | hv
            · right; exact hv
            · left; exact List.mem_of_mem_drop hv
        rcases hor with hv | hv
        · rw [if_neg (by intro h0; unfold Wave.channels at h0; rw [List.eq_nil_of_length_eq_zero h0] at hv; cases hv)]
          exact hw.1 v hv
        · rw [hv]
          split
          · rfl
          · rename_i h0; exact (hc.1.resolve_left h0).symm
      · intro he
        have he : w.vec.take c ++ l :: w.vec.drop c = [] := he
        simp at he
    · cases h
  | removeChannel c =>
    have h : (w.removeChannel c).map (·.1) = some w' := h
    unfold Wave.removeChannel at h
    cases hv : w.vec[c]? with
    | none => rw [hv] at h; cases h
    | some l =>
      rw [hv] at h; cases h
      have hc := (List.getElem?_eq_some_iff.1 hv).1
      constructor
      · intro v hv'
        show v.length = if w.channels = 1 then 0 else w.len
        have hv' : v ∈ w.vec.eraseIdx c := hv'
        by_cases h1 : w.channels = 1
        · exfalso
          have h1 : w.vec.length = 1 := h1
          have : (w.vec.eraseIdx c).length = 0 := by rw [List.length_eraseIdx_of_lt hc]; omega
          rw [List.eq_nil_of_length_eq_zero this] at hv'; cases hv'
        · rw [if_neg h1]; exact hw.1 v (List.mem_of_mem_eraseIdx hv')
      · intro he
        show (if w.channels = 1 then 0 else w.len) = 0
        have he : w.vec.eraseIdx c = [] := he
        have := List.length_eraseIdx_of_lt hc
        rw [he, List.length_nil] at this
        rw [if_pos (by unfold Wave.channels; omega)]
  | append s =>
    have h : w.append s = some w' := h
    unfold Wave.append at h
    split at h
    · cases hr : w.resize (w.len + s.len) with
      | none => rw [hr] at h; cases h
      | some w1 =>
        rw [hr] at h
        simp only [Option.bind_some] at h
        refine forRange_inv (P := Wave.Wf) ?_ (resize_wf hw hr) h
        intro i x y hx hf
        cases hl : s.vec[i]? with
        | none => rw [hl] at hf; cases hf
        | some z => rw [hl] at hf; exact wf_of_shape (mixChannel_shape hf) hx
    · cases h
  | push f =>
    have h : w.push f = some w' := h
    unfold Wave.push at h
    have key : ∀ vec : List (List α), vec.length = w.vec.length → (∀ v ∈ vec, ∃ u ∈ w.vec, ∃ x, v = u ++ [x]) → (⟨vec, w.rate, if 0 < w.channels then w.len + 1 else w.len⟩ : Wave α).Wf := by
      intro vec hl hv
      constructor
      · intro v hm
        show v.length = if 0 < w.channels then w.len + 1 else w.len
        obtain ⟨u, hu, x, rfl⟩ := hv v hm
        rw [if_pos (by unfold Wave.channels; exact List.length_pos_of_mem hu), List.length_append, hw.1 u hu]; rfl
      · intro he
        show (if 0 < w.channels then w.len + 1 else w.len) = 0
        have he : vec = [] := he
        have h0 : w.vec = [] := List.eq_nil_of_length_eq_zero (by rw [← hl, he]; rfl)
        rw [if_neg (by unfold Wave.channels; rw [h0]; simp)]
        exact hw.2 h0
    split at h
    · cases h
      apply key
      · simp
      · intro v hv
        obtain ⟨u, hu, rfl⟩ := List.mem_map.1 hv
        exact ⟨u, hu, _, rfl⟩
    · split at h
      · rename_i hc
        cases h
        apply key
        · rw [List.length_zipWith]; unfold Wave.channels at hc; omega
        · intro v hv
          obtain ⟨j, hj, rfl⟩ := List.getElem_of_mem hv
          rw [List.getElem_zipWith]
          exact ⟨_, List.getElem_mem _, _, rfl⟩
      · cases h
  | retain s n =>
    have h : w.retain s n = some w' := h
    unfold Wave.retain at h
    simp only at h
    cases hl : (if 0 < (max s 0).toNat then forRange 0 w.channels (fun c w' => forRange (max s 0).toNat (min w.len (max 0 (s + n)).toNat) (fun i w' => (w'.at? c i).bind fun x => w'.set c (i - (max s 0).toNat) x) w') w else some w) with
    | none => rw [hl] at h; cases h
    | some w1 =>
      rw [hl] at h
      simp only [Option.bind_some] at h
      split at h
      · refine resize_wf ?_ h
        split at hl
        · refine forRange_inv (P := Wave.Wf) ?_ hw hl
          intro c x y hx hf
          refine forRange_inv (P := Wave.Wf) ?_ hx hf
          intro i x y hx hf
          cases ha : x.at? c i with
          | none => rw [ha] at hf; cases hf
          | some z => rw [ha] at hf; exact wf_of_shape (set_shape hf) hx
        · cases hl; exact hw
      · cases h

/-- **C57, consistency.** In every wave made by any sequence of edits, all channels have the length of the wave, and a wave without channels has length zero. -/
theorem C57_consistent [Zero α] [Add α] {w : Wave α} (h : Made w) : (∀ v ∈ w.vec, v.length = w.len) ∧ (w.vec = [] → w.len = 0) := by
  show w.Wf
  induction h with
  | new channels rate =>
    refine ⟨fun v hv => ?_, fun _ => rfl⟩
    rw [(List.mem_replicate.1 hv).2]; rfl
  | zero h =>
    unfold Wave.zero at h
    split at h
    · rename_i hc
      cases h
      refine ⟨fun v hv => ?_, fun he => ?_⟩
      · rw [(List.mem_replicate.1 hv).2, List.length_replicate]
      · rcases hc with hc | hc
        · rename_i channels _ _
          have he : List.replicate channels (List.replicate _ (0 : α)) = [] := he
          rw [List.replicate_eq_nil_iff] at he
          omega
        · exact hc
    · cases h
  | fromSamples rate samples =>
    refine ⟨fun v hv => ?_, fun he => ?_⟩
    · rw [List.mem_singleton.1 hv]; rfl
    · cases he
  | edit e h he ih => exact apply_wf ih he

/-- A stereo wave of two samples, of which the first channel is removed. -/
example : Made (⟨[[3, 4]], 44100, 2⟩ : Wave ℚ) := by
  refine .edit (.removeChannel 0) (w := ⟨[[1, 2], [3, 4]], 44100, 2⟩) ?_ rfl
  refine .edit (.pushChannel [3, 4]) (w := ⟨[[1, 2]], 44100, 2⟩) ?_ rfl
  exact .fromSamples 44100 [1, 2]

/-! ## Effects of edits -/

/-- **C57, push_channel.** Accepted if the length matches or there are no channels; the channel is added at the end. -/
theorem C57_push_channel (w : Wave α) (l : List α) :
    ((∃ w', w.pushChannel l = some w') ↔ (w.channels = 0 ∨ w.len = l.length)) ∧
      ∀ w', w.pushChannel l = some w' → w'.channels = w.channels + 1 ∧ w'.vec[w.channels]? = some l ∧ ∀ c, c < w.channels → w'.vec[c]? = w.vec[c]? := by
  unfold Wave.pushChannel
  constructor
  · by_cases h : w.channels = 0 ∨ w.len = l.length
    · rw [if_pos h]; exact ⟨fun _ => h, fun _ => ⟨_, rfl⟩⟩
    · rw [if_neg h]; exact ⟨fun ⟨_, h'⟩ => (by cases h'), fun h' => absurd h' h⟩
  · intro w' h
    split at h
    · cases h
      refine ⟨?_, ?_, ?_⟩
      · show (w.vec ++ [l]).length = _; simp [Wave.channels]
      · show (w.vec ++ [l])[w.vec.length]? = _; simp
      · intro c hc
        exact List.getElem?_append_left hc
    · cases h

/-- **C57, insert_channel.** Accepted if also the position is at most the number of channels; the channels from the position on move up by one. -/
theorem C57_insert_channel (w : Wave α) (c : Nat) (l : List α) :
    ((∃ w', w.insertChannel c l = some w') ↔ ((w.channels = 0 ∨ w.len = l.length) ∧ c ≤ w.channels)) ∧
      ∀ w', w.insertChannel c l = some w' → w'.vec[c]? = some l ∧ (∀ k, k < c → w'.vec[k]? = w.vec[k]?) ∧ (∀ k, c ≤ k → w'.vec[k + 1]? = w.vec[k]?) := by
  unfold Wave.insertChannel
  constructor
  · by_cases h : (w.channels = 0 ∨ w.len = l.length) ∧ c ≤ w.channels
    · rw [if_pos h]; exact ⟨fun _ => h, fun _ => ⟨_, rfl⟩⟩
    · rw [if_neg h]; exact ⟨fun ⟨_, h'⟩ => (by cases h'), fun h' => absurd h' h⟩
  · intro w' h
    split at h
    · rename_i hc
      cases h
      have hl : (w.vec.take c).length = c := by rw [List.length_take]; exact min_eq_left hc.2
      refine ⟨?_, fun k hk => ?_, fun k hk => ?_⟩
      · show (w.vec.take c ++ l :: w.vec.drop c)[c]? = _
        rw [List.getElem?_append_right (by omega), hl, Nat.sub_self]; rfl
      · show (w.vec.take c ++ l :: w.vec.drop c)[k]? = _
        rw [List.getElem?_append_left (by omega), List.getElem?_take, if_pos hk]
      · show (w.vec.take c ++ l :: w.vec.drop c)[k + 1]? = _
        rw [List.getElem?_append_right (by omega), hl, show k + 1 - c = (k - c) + 1 by omega, List.getElem?_cons_succ, List.getElem?_drop]
        congr 1; omega
    · cases h

/-- **C57, remove_channel.** Accepted for existing channels; the removed channel is returned and the ones above move down by one. -/
theorem C57_remove_channel (w : Wave α) (c : Nat) :
    ((∃ r, w.removeChannel c = some r) ↔ c < w.channels) ∧
      ∀ r, w.removeChannel c = some r → w.vec[c]? = some r.2 ∧ (∀ k, k < c → r.1.vec[k]? = w.vec[k]?) ∧ (∀ k, c ≤ k → r.1.vec[k]? = w.vec[k + 1]?) := by
  unfold Wave.removeChannel
  constructor
  · constructor
    · rintro ⟨r, h⟩
      cases hv : w.vec[c]? with
      | none => rw [hv] at h; cases h
      | some l => exact (List.getElem?_eq_some_iff.1 hv).1
    · intro h
      rw [List.getElem?_eq_getElem h]; exact ⟨_, rfl⟩
  · intro r h
    cases hv : w.vec[c]? with
    | none => rw [hv] at h; cases h
    | some l =>
      rw [hv] at h; cases h
      refine ⟨rfl, fun k hk => ?_, fun k hk => ?_⟩
      · show (w.vec.eraseIdx c)[k]? = _
        rw [List.getElem?_eraseIdx, if_pos hk]
      · show (w.vec.eraseIdx c)[k]? = _
        rw [List.getElem?_eraseIdx, if_neg (by omega)]

/-- The sample of the mixed signal at a position relative to its start: nothing before its start or after its end. -/
def mixedAt (l : List α) (j : Int) : Option α := if 0 ≤ j then l[j.toNat]? else none

/-- **C57, mix_channel.** For every offset: a sample that the mixed signal overlaps has it added, all others stay as they are. -/
theorem C57_mix_channel [Zero α] [Add α] (w : Wave α) (hw : w.Wf) (c : Nat) (hc : c < w.channels) (offset : Int) (l : List α) :
    ∃ w', w.mixChannel c offset l = some w' ∧ w'.channels = w.channels ∧ w'.len = w.len ∧
      (∀ k i, k ≠ c → w'.at? k i = w.at? k i) ∧
      (∀ i x, w.at? c i = some x → w'.at? c i = some ((mixedAt l (i - offset)).elim x (x + ·))) := by
  have : Inhabited α := ⟨0⟩
  have hwf : w.Wf := hw
  have e := wf_tab hwf
  generalize hf : (fun c i => (w.at? c i).getD default) = f at e
  have hat : ∀ k i, w.at? k i = if k < w.channels ∧ i < w.len then some (f k i) else none := fun k i => (congrArg (fun w => Wave.at? w k i) e).trans (tab_at _ _ _ _ _ _)
  refine ⟨_, (congrArg (fun w => Wave.mixChannel w c offset l) e).trans (tab_mixChannel hc offset l), tab_channels _ _ _ _, rfl, ?_, ?_⟩
  · intro k i hk
    rw [tab_at, hat]
    simp only [if_neg hk]
  · intro i x hx
    rw [hat] at hx
    rw [tab_at]
    split at hx
    · rename_i h
      cases hx
      rw [if_pos h, if_pos rfl]
      rfl
    · cases hx

/-- **C57, resize.** Samples up to the new length are kept, new samples are zero. The wave must have channels. -/
theorem C57_resize [Zero α] [Add α] (w : Wave α) (hw : w.Wf) (length : Nat) :
    ((∃ w', w.resize length = some w') ↔ 0 < w.channels) ∧
      ∀ w', w.resize length = some w' → w'.channels = w.channels ∧ w'.len = length ∧
        ∀ c i, c < w.channels → i < length → w'.at? c i = if i < w.len then w.at? c i else some 0 := by
  have : Inhabited α := ⟨0⟩
  have hwf : w.Wf := hw
  have e := wf_tab hwf
  generalize hf : (fun c i => (w.at? c i).getD default) = f at e
  have hat : ∀ k i, w.at? k i = if k < w.channels ∧ i < w.len then some (f k i) else none := fun k i => (congrArg (fun w => Wave.at? w k i) e).trans (tab_at _ _ _ _ _ _)
  constructor
  · unfold Wave.resize
    by_cases h : 0 < w.channels
    · rw [if_pos h]; exact ⟨fun _ => h, fun _ => ⟨_, rfl⟩⟩
    · rw [if_neg h]; exact ⟨fun ⟨_, h'⟩ => (by cases h'), fun h' => absurd h' h⟩
  · intro w' h
    have hc : 0 < w.channels := by
      unfold Wave.resize at h
      split at h
      · assumption
      · cases h
    have h2 := (congrArg (fun w => Wave.resize w length) e).trans (tab_resize hc length)
    have h2 := Option.some.inj (h.symm.trans h2)
    subst h2
    refine ⟨tab_channels _ _ _ _, rfl, fun c i hc' hi => ?_⟩
    rw [tab_at, if_pos ⟨hc', hi⟩, hat]
    by_cases hl : i < w.len
    · rw [if_pos hl, if_pos hl, if_pos ⟨hc', hl⟩]
    · rw [if_neg hl, if_neg hl]

/-- **C57, append.** The samples of the source follow the samples of the wave. Accepted for waves with channels, when the numbers of channels match. -/
theorem C57_append [AddMonoid α] (w s : Wave α) (hw : w.Wf) (hs : s.Wf) (hc : 0 < w.channels) (hcs : w.channels = s.channels) :
    ∃ w', w.append s = some w' ∧ w'.channels = w.channels ∧ w'.len = w.len + s.len ∧
      ∀ c i, w'.at? c i = if i < w.len then w.at? c i else s.at? c (i - w.len) := by
  have : Inhabited α := ⟨0⟩
  have e := wf_tab hw
  generalize hf : (fun c i => (w.at? c i).getD default) = f at e
  have hat : ∀ k i, w.at? k i = if k < w.channels ∧ i < w.len then some (f k i) else none := fun k i => (congrArg (fun w => Wave.at? w k i) e).trans (tab_at _ _ _ _ _ _)
  have es := wf_tab hs
  generalize hg : (fun c i => (s.at? c i).getD default) = g at es
  have hats : ∀ k i, s.at? k i = if k < s.channels ∧ i < s.len then some (g k i) else none := fun k i => (congrArg (fun w => Wave.at? w k i) es).trans (tab_at _ _ _ _ _ _)
  have hvs : ∀ k, s.vec[k]? = if k < s.channels then some ((List.range s.len).map (g k)) else none := fun k => (congrArg (fun w : Wave α => w.vec[k]?) es).trans (tab_vec _ _ _ _ _)
  have hres : w.resize (w.len + s.len) = some (tab w.rate w.channels (w.len + s.len) (fun c i => if i < w.len then f c i else 0)) := (congrArg (fun w => Wave.resize w _) e).trans (tab_resize hc _)
  unfold Wave.append
  rw [if_pos hcs, hres]
  simp only [Option.bind_some, tab_channels]
  obtain ⟨y, hy, hI⟩ := forRange_spec
    (I := fun k x => x = tab w.rate w.channels (w.len + s.len) (fun c i => if i < w.len then f c i else if c < k then g c (i - w.len) else 0))
    (f := fun i w' => (s.vec[i]?).bind fun v => w'.mixChannel i w.len v) (a := 0) (b := w.channels) (x := tab w.rate w.channels (w.len + s.len) (fun c i => if i < w.len then f c i else 0))
    (by
      intro k _ hk x hx
      rw [hx, hvs, if_pos (by omega)]
      refine ⟨_, tab_mixChannel hk _ _, ?_⟩
      apply tab_congr
      intro c i hc' hi
      by_cases hck : c = k
      · subst hck
        rw [if_pos rfl]
        unfold sampleAt
        by_cases hil : i < w.len
        · rw [if_neg (by omega), if_pos hil]; simp only [Option.elim_none, if_pos hil]
        · rw [if_pos (by omega), if_neg hil, List.getElem?_map, List.getElem?_range (by omega)]
          simp only [Option.map_some, Option.elim_some, if_neg hil]
          rw [if_neg (by omega), if_pos (by omega), zero_add]
          congr 1; omega
      · rw [if_neg hck]
        by_cases hil : i < w.len
        · rw [if_pos hil, if_pos hil]
        · rw [if_neg hil, if_neg hil]
          by_cases hlt : c < k
          · rw [if_pos hlt, if_pos (by omega)]
          · rw [if_neg hlt, if_neg (by omega)]) (Nat.zero_le _)
    (by
      apply tab_congr
      intro c i _ _
      simp)
  refine ⟨y, hy, by rw [hI]; exact tab_channels _ _ _ _, by rw [hI]; rfl, fun c i => ?_⟩
  rw [hI, tab_at, hat, hats, ← hcs]
  by_cases hcc : c < w.channels
  · by_cases hil : i < w.len
    · simp only [hcc, hil, true_and, if_true]
      rw [if_pos (by omega)]
    · simp only [hcc, hil, true_and, if_true, if_false]
      by_cases hi2 : i < w.len + s.len
      · rw [if_pos hi2, if_pos (by omega)]
      · rw [if_neg hi2, if_neg (by omega)]
  · simp only [hcc, false_and, if_false, ite_self]

/-- **C57, push.** A frame with one value per channel, or a single value for all channels, is added to the end. -/
theorem C57_push [Zero α] [Add α] (w : Wave α) (hw : w.Wf) (frame : List α) (hf : frame.length = 1 ∨ frame.length = w.channels) :
    ∃ w', w.push frame = some w' ∧ w'.channels = w.channels ∧ (0 < w.channels → w'.len = w.len + 1) ∧
      ∀ c, c < w.channels → (∀ i, i < w.len → w'.at? c i = w.at? c i) ∧ w'.at? c w.len = if frame.length = 1 then frame[0]? else frame[c]? := by
  have hwf := hw
  have key : ∀ (u : List α) (x : α), u.length = w.len → (∀ i, i < w.len → (u ++ [x])[i]? = u[i]?) ∧ (u ++ [x])[w.len]? = some x := by
    intro u x hu
    exact ⟨fun i hi => List.getElem?_append_left (by omega), by rw [List.getElem?_append_right (by omega), hu]; simp⟩
  unfold Wave.push
  by_cases h1 : frame.length = 1
  · rw [dif_pos h1]
    refine ⟨_, rfl, by simp [Wave.channels], fun h => if_pos h, fun c hc => ?_⟩
    have hc : c < w.vec.length := hc
    have hl := hwf.1 _ (List.getElem_mem hc)
    obtain ⟨k1, k2⟩ := key w.vec[c] frame[0] hl
    simp only [Wave.at?, List.getElem?_map]
    rw [List.getElem?_eq_getElem hc]
    refine ⟨k1, ?_⟩
    rw [if_pos h1, List.getElem?_eq_getElem (by omega)]
    exact k2
  · rw [dif_neg h1]
    have h2 := hf.resolve_left h1
    rw [if_pos h2.symm]
    refine ⟨_, rfl, ?_, fun h => if_pos h, fun c hc => ?_⟩
    · show (List.zipWith _ _ _).length = _
      rw [List.length_zipWith, h2]; simp [Wave.channels]
    · have hc' : c < w.vec.length := hc
      have hcf : c < frame.length := by omega
      have hl := hwf.1 _ (List.getElem_mem hc')
      obtain ⟨k1, k2⟩ := key w.vec[c] frame[c] hl
      simp only [Wave.at?, List.getElem?_zipWith]
      rw [List.getElem?_eq_getElem hc', List.getElem?_eq_getElem hcf]
      refine ⟨k1, ?_⟩
      rw [if_neg h1]
      exact k2

/-- **C57, retain.** Exactly the samples in `start .. start + length` are kept, in order. Missing from the full claim: spans that start after the end of the wave and waves
without channels, where it fails (`C57_violation_retain`, `C57_violation_empty`). -/
theorem C57_retain_partial [Zero α] [Add α] (w : Wave α) (hw : w.Wf) (hc : 0 < w.channels) (start : Int) (length : Nat) (hs : start ≤ w.len) :
    ∃ w', w.retain start length = some w' ∧ w'.channels = w.channels ∧
      (w'.len : Int) = max 0 (min (w.len : Int) (start + length) - max start 0) ∧
      ∀ c i, w'.at? c i = if max start 0 + i < start + length then w.at? c ((max start 0).toNat + i) else none := by
  have : Inhabited α := ⟨0⟩
  have e := wf_tab hw
  generalize hf : (fun c i => (w.at? c i).getD default) = f at e
  have hat : ∀ k i, w.at? k i = if k < w.channels ∧ i < w.len then some (f k i) else none := fun k i => (congrArg (fun w => Wave.at? w k i) e).trans (tab_at _ _ _ _ _ _)
  unfold Wave.retain
  simp only
  generalize hi0 : (max start 0).toNat = i0
  generalize hi1 : min w.len (max 0 (start + length)).toNat = i1
  have hle : i1 ≤ w.len := by omega
  have h01 : i0 ≤ i1 := by omega
  -- the copy loop
  obtain ⟨w1, hw1, hI⟩ : ∃ w1, (if 0 < i0 then forRange 0 w.channels (fun c w' => forRange i0 i1 (fun i w' => (w'.at? c i).bind fun x => w'.set c (i - i0) x) w') w else some w) = some w1 ∧
      ∃ g, w1 = tab w.rate w.channels w.len g ∧ ∀ c i, c < w.channels → i < i1 - i0 → g c i = f c (i + i0) := by
    by_cases hp : 0 < i0
    · rw [if_pos hp]
      obtain ⟨y, hy, g, hg, hg1, -⟩ := forRange_spec
        (I := fun k x => ∃ g, x = tab w.rate w.channels w.len g ∧ (∀ c i, c < k → i < i1 - i0 → g c i = f c (i + i0)) ∧ (∀ c i, k ≤ c → g c i = f c i))
        (f := fun c w' => forRange i0 i1 (fun i w' => (w'.at? c i).bind fun x => w'.set c (i - i0) x) w') (a := 0) (b := w.channels) (x := w)
        (by
          intro k _ hk x ⟨g, hx, hg1, hg2⟩
          obtain ⟨y, hy, g', hy', h1, h2, h3⟩ := forRange_spec
            (I := fun j x => ∃ g', x = tab w.rate w.channels w.len g' ∧ (∀ c i, c ≠ k → g' c i = g c i) ∧ (∀ i, i < j - i0 → g' k i = f k (i + i0)) ∧ (∀ i, j - i0 ≤ i → g' k i = f k i))
            (f := fun i w' => (w'.at? k i).bind fun x => w'.set k (i - i0) x) (a := i0) (b := i1) (x := x)
            (by
              intro j hj1 hj2 x ⟨g', hx', a1, a2, a3⟩
              rw [hx', tab_at, if_pos ⟨hk, by omega⟩]
              refine ⟨_, tab_set hk (by omega) _, _, rfl, ?_, ?_, ?_⟩
              · intro c i hck
                rw [if_neg (by tauto)]; exact a1 c i hck
              · intro i hi
                by_cases hii : i = j - i0
                · rw [if_pos ⟨rfl, hii⟩, a3 j (by omega), hii]; congr 1; omega
                · rw [if_neg (by tauto)]; exact a2 i (by omega)
              · intro i hi
                rw [if_neg (by omega)]; exact a3 i (by omega)) h01
            ⟨g, hx, fun _ _ _ => rfl, fun i hi => by omega, fun i _ => hg2 k i (le_refl _)⟩
          refine ⟨y, hy, g', hy', ?_, ?_⟩
          · intro c i hc' hi
            by_cases hck : c = k
            · rw [hck]; exact h2 i hi
            · rw [h1 c i hck]; exact hg1 c i (by omega) hi
          · intro c i hc'
            rw [h1 c i (by omega)]; exact hg2 c i (by omega)) (Nat.zero_le _)
        ⟨f, e, fun c i h => by omega, fun _ _ _ => rfl⟩
      exact ⟨y, hy, g, hg, hg1⟩
    · rw [if_neg hp]
      have : i0 = 0 := by omega
      subst this
      exact ⟨w, rfl, f, e, fun c i _ _ => rfl⟩
  obtain ⟨g, hg, hgf⟩ := hI
  rw [hw1]
  simp only [Option.bind_some]
  rw [if_pos h01, hg, tab_resize hc]
  refine ⟨_, rfl, tab_channels _ _ _ _, ?_, ?_⟩
  · show ((i1 - i0 : Nat) : Int) = _; omega
  · intro c i
    rw [tab_at, hat]
    by_cases hcc : c < w.channels
    · by_cases hi : i < i1 - i0
      · rw [if_pos ⟨hcc, hi⟩, if_pos (by omega), if_pos (by omega), if_pos ⟨hcc, by omega⟩, hgf c i hcc hi, Nat.add_comm]
      · rw [if_neg (by tauto)]
        split
        · rw [if_neg (by omega)]
        · rfl
    · rw [if_neg (by tauto)]
      split
      · rw [if_neg (by tauto)]
      · rfl

/-- **C57 fails**: a span that starts after the end of the wave does not overlap it, but `retain` panics instead of leaving an empty wave. -/
theorem C57_violation_retain [Zero α] [Add α] (w : Wave α) (start : Int) (length : Nat) (hs : w.len < start) : w.retain start length = none := by
  unfold Wave.retain
  simp only
  generalize hi0 : (max start 0).toNat = i0
  generalize hi1 : min w.len (max 0 (start + length)).toNat = i1
  have h : i1 < i0 := by omega
  cases hl : (if 0 < i0 then forRange 0 w.channels (fun c w' => forRange i0 i1 (fun i w' => (w'.at? c i).bind fun x => w'.set c (i - i0) x) w') w else some w) with
  | none => rfl
  | some w1 => simp only [Option.bind_some]; rw [if_neg (by omega)]

/-- **C57 fails**: on waves without channels, `append` of another such wave panics, and so does `retain`. -/
theorem C57_violation_empty [Zero α] [Add α] (rate rate' : ℝ) (start : Int) (length : Nat) :
    (Wave.new 0 rate : Wave α).append (Wave.new 0 rate') = none ∧ (Wave.new 0 rate : Wave α).retain start length = none := by
  constructor
  · rfl
  · unfold Wave.retain
    simp only
    have : ∀ n, (Wave.new 0 rate : Wave α).resize n = none := fun n => rfl
    have hf : forRange 0 (Wave.new 0 rate : Wave α).channels (fun c w' => forRange (max start 0).toNat (min (Wave.new 0 rate : Wave α).len (max 0 (start + length)).toNat) (fun i w' => (w'.at? c i).bind fun x => w'.set c (i - (max start 0).toNat) x) w') (Wave.new 0 rate : Wave α) = some (Wave.new 0 rate : Wave α) := rfl
    rw [hf, ite_self]
    simp only [Option.bind_some, this]
    split <;> rfl

example : (Wave.fromSamples 44100 [1, 2, 3] : Wave ℚ).Wf ∧ (Wave.fromSamples 44100 [1, 2, 3] : Wave ℚ).channels = 1 := ⟨C57_consistent (.fromSamples _ _), rfl⟩

end Fundsp.Wv
