import Verif.Wave.Model

/-! # Waves: tables and loops -/

noncomputable section
namespace Fundsp.Wv

variable {α : Type}

/-- All channels have the length of the wave, and a wave without channels has no length. -/
def Wave.Wf (w : Wave α) : Prop := (∀ v ∈ w.vec, v.length = w.len) ∧ (w.vec = [] → w.len = 0)

/-! ## Loops -/

theorem forRange_none {β : Type} {a b : Nat} (h : b ≤ a) (f : Nat → β → Option β) (x : β) : forRange a b f x = some x := by
  unfold forRange; rw [Nat.sub_eq_zero_of_le h]; rfl

theorem forRange_inv {β : Type} {P : β → Prop} {f : Nat → β → Option β} (hf : ∀ i x y, P x → f i x = some y → P y) {a b : Nat} {x y : β} (hx : P x) (h : forRange a b f x = some y) : P y := by
  unfold forRange at h
  generalize b - a = n at h
  induction n generalizing a x with
  | zero => simp only [List.range'_zero, List.foldlM_nil] at h; cases h; exact hx
  | succ n ih =>
    simp only [List.range'_succ, List.foldlM_cons] at h
    cases hfa : f a x with
    | none => rw [hfa] at h; cases h
    | some z => rw [hfa] at h; exact ih (hf _ _ _ hx hfa) h

theorem forRange_spec {β : Type} {I : Nat → β → Prop} {f : Nat → β → Option β} {a b : Nat} (hf : ∀ i, a ≤ i → i < b → ∀ x, I i x → ∃ y, f i x = some y ∧ I (i + 1) y) (hab : a ≤ b) {x : β} (hx : I a x) :
    ∃ y, forRange a b f x = some y ∧ I b y := by
  unfold forRange
  obtain ⟨n, rfl⟩ : ∃ n, b = a + n := ⟨b - a, by omega⟩
  clear hab
  rw [Nat.add_sub_cancel_left]
  induction n generalizing a x with
  | zero => exact ⟨x, rfl, hx⟩
  | succ n ih =>
    obtain ⟨y, hy, hI⟩ := hf a (le_refl _) (by omega) x hx
    obtain ⟨z, hz, hI'⟩ := ih (a := a + 1) hI (fun i h1 h2 => hf i (by omega) (by omega))
    refine ⟨z, ?_, by rw [show a + (n + 1) = a + 1 + n by omega]; exact hI'⟩
    simp only [List.range'_succ, List.foldlM_cons]
    rw [hy]; exact hz

/-! ## Waves as tables -/

/-- The wave with the given samples. -/
def tab (rate : ℝ) (n len : Nat) (f : Nat → Nat → α) : Wave α := ⟨(List.range n).map fun c => (List.range len).map (f c), rate, len⟩

theorem tab_channels (rate : ℝ) (n len : Nat) (f : Nat → Nat → α) : (tab rate n len f).channels = n := by simp [tab, Wave.channels]

theorem tab_vec (rate : ℝ) (n len : Nat) (f : Nat → Nat → α) (c : Nat) : (tab rate n len f).vec[c]? = if c < n then some ((List.range len).map (f c)) else none := by
  simp only [tab, List.getElem?_map]
  by_cases h : c < n
  · rw [List.getElem?_range h, if_pos h]; rfl
  · rw [List.getElem?_eq_none (by simpa using h), if_neg h]; rfl

theorem tab_at (rate : ℝ) (n len : Nat) (f : Nat → Nat → α) (c i : Nat) : (tab rate n len f).at? c i = if c < n ∧ i < len then some (f c i) else none := by
  unfold Wave.at?
  rw [tab_vec]
  by_cases h : c < n
  · rw [if_pos h]
    simp only [Option.bind_some, List.getElem?_map]
    by_cases hi : i < len
    · rw [List.getElem?_range hi, if_pos ⟨h, hi⟩]; rfl
    · rw [List.getElem?_eq_none (by simpa using hi), if_neg (by tauto)]; rfl
  · rw [if_neg h, if_neg (by tauto)]; rfl

theorem tab_congr {rate : ℝ} {n len : Nat} {f g : Nat → Nat → α} (h : ∀ c i, c < n → i < len → f c i = g c i) : tab rate n len f = tab rate n len g := by
  unfold tab
  congr 1
  apply List.map_congr_left
  intro c hc
  apply List.map_congr_left
  intro i hi
  exact h c i (List.mem_range.1 hc) (List.mem_range.1 hi)

theorem tab_wf {rate : ℝ} {n len : Nat} {f : Nat → Nat → α} (h : n = 0 → len = 0) : (tab rate n len f).Wf := by
  constructor
  · intro v hv
    simp only [tab, List.mem_map, List.mem_range] at hv
    obtain ⟨c, -, rfl⟩ := hv
    simp [tab]
  · intro he
    apply h
    simpa [tab] using he

/-- Every consistent wave is a table. -/
theorem wf_tab [Inhabited α] {w : Wave α} (h : w.Wf) : w = tab w.rate w.channels w.len (fun c i => (w.at? c i).getD default) := by
  obtain ⟨vec, rate, len⟩ := w
  unfold tab
  congr 1
  apply List.ext_getElem?
  intro c
  simp only [List.getElem?_map]
  by_cases hc : c < vec.length
  · rw [List.getElem?_range (by exact hc), List.getElem?_eq_getElem hc]
    simp only [Option.map_some]
    congr 1
    have hl : vec[c].length = len := h.1 _ (List.getElem_mem hc)
    apply List.ext_getElem?
    intro i
    simp only [List.getElem?_map]
    by_cases hi : i < len
    · rw [List.getElem?_range hi, List.getElem?_eq_getElem (by rw [hl]; exact hi)]
      simp only [Option.map_some, Wave.at?]
      rw [List.getElem?_eq_getElem hc]
      simp only [Option.bind_some]
      rw [List.getElem?_eq_getElem (by rw [hl]; exact hi)]
      rfl
    · rw [List.getElem?_eq_none (by rw [hl]; omega), List.getElem?_eq_none (by simpa using hi)]; rfl
  · rw [List.getElem?_eq_none (by omega), List.getElem?_eq_none (by simpa [Wave.channels] using hc)]; rfl

theorem tab_set {rate : ℝ} {n len : Nat} {f : Nat → Nat → α} {c i : Nat} (hc : c < n) (hi : i < len) (v : α) :
    (tab rate n len f).set c i v = some (tab rate n len (fun c' i' => if c' = c ∧ i' = i then v else f c' i')) := by
  unfold Wave.set
  rw [tab_vec, if_pos hc]
  simp only [Option.bind_some, List.length_map, List.length_range]
  rw [if_pos hi]
  congr 1
  unfold tab
  congr 1
  apply List.ext_getElem?
  intro c'
  rw [List.getElem?_set]
  simp only [List.getElem?_map, List.length_map, List.length_range]
  by_cases hcc : c = c'
  · subst hcc
    rw [if_pos rfl, if_pos hc, List.getElem?_range hc]
    simp only [Option.map_some]
    congr 1
    apply List.ext_getElem?
    intro i'
    rw [List.getElem?_set]
    simp only [List.getElem?_map, List.length_map, List.length_range]
    by_cases hii : i = i'
    · subst hii
      rw [if_pos rfl, if_pos hi, List.getElem?_range hi]
      simp
    · rw [if_neg hii]
      by_cases hi' : i' < len
      · rw [List.getElem?_range hi']
        simp only [Option.map_some]
        rw [if_neg (by rintro ⟨-, h⟩; exact hii h.symm)]
      · rw [List.getElem?_eq_none (by simpa using hi')]; rfl
  · rw [if_neg hcc]
    by_cases hc' : c' < n
    · rw [List.getElem?_range hc']
      simp only [Option.map_some]
      congr 1
      apply List.map_congr_left
      intro i' _
      rw [if_neg (by rintro ⟨h, -⟩; exact hcc h.symm)]
    · rw [List.getElem?_eq_none (by simpa using hc')]; rfl

theorem tab_mix [Add α] {rate : ℝ} {n len : Nat} {f : Nat → Nat → α} {c i : Nat} (hc : c < n) (hi : i < len) (v : α) :
    (tab rate n len f).mix c i v = some (tab rate n len (fun c' i' => if c' = c ∧ i' = i then f c i + v else f c' i')) := by
  unfold Wave.mix
  rw [tab_at, if_pos ⟨hc, hi⟩]
  simp only [Option.bind_some]
  exact tab_set hc hi _

/-- Lookup in a list of samples at an index that may be negative. -/
def sampleAt (l : List α) (j : Int) : Option α := if 0 ≤ j then l[j.toNat]? else none

theorem tab_mixChannel [Add α] {rate : ℝ} {n len : Nat} {f : Nat → Nat → α} {c : Nat} (hc : c < n) (offset : Int) (l : List α) :
    (tab rate n len f).mixChannel c offset l =
      some (tab rate n len (fun c' i => if c' = c then (sampleAt l (i - offset)).elim (f c' i) (f c' i + ·) else f c' i)) := by
  unfold Wave.mixChannel
  have hlen : (tab rate n len f).len = len := rfl
  rw [hlen]
  by_cases hab : (max offset 0).toNat ≤ (min (offset + l.length) len).toNat
  · obtain ⟨y, hy, hI⟩ := forRange_spec
      (I := fun k x => x = tab rate n len (fun c' i => if c' = c ∧ i < k then (sampleAt l (i - offset)).elim (f c' i) (f c' i + ·) else f c' i))
      (f := fun i w => (l[((i : Int) - offset).toNat]?).bind fun x => w.mix c i x)
      (a := (max offset 0).toNat) (b := (min (offset + l.length) len).toNat) (x := tab rate n len f)
      (by
        intro i h1 h2 x hx
        have hil : i < len := by omega
        have hio : ((i : Int) - offset).toNat < l.length := by omega
        rw [hx, List.getElem?_eq_getElem hio]
        refine ⟨_, tab_mix hc hil _, ?_⟩
        apply tab_congr
        intro c' i' _ _
        by_cases hcc : c' = c
        · subst hcc
          by_cases hii : i' = i
          · subst hii
            rw [if_pos ⟨rfl, rfl⟩, if_neg (by omega), if_pos ⟨rfl, by omega⟩]
            unfold sampleAt
            rw [if_pos (by omega), List.getElem?_eq_getElem hio]
            rfl
          · rw [if_neg (by tauto)]
            by_cases hlt : i' < i
            · rw [if_pos ⟨rfl, hlt⟩, if_pos ⟨rfl, by omega⟩]
            · rw [if_neg (by tauto), if_neg (by omega)]
        · rw [if_neg (by tauto), if_neg (by tauto), if_neg (by tauto)]) hab
      (by
        apply tab_congr
        intro c' i' _ _
        by_cases hlt : c' = c ∧ i' < (max offset 0).toNat
        · rw [if_pos hlt]
          unfold sampleAt
          rw [if_neg (by omega)]; rfl
        · rw [if_neg hlt])
    rw [hy, hI]
    congr 1
    apply tab_congr
    intro c' i' _ hi'
    by_cases hcc : c' = c
    · subst hcc
      rw [if_pos rfl]
      by_cases hlt : i' < (min (offset + l.length) len).toNat
      · rw [if_pos ⟨rfl, hlt⟩]
      · rw [if_neg (by tauto)]
        have hn : sampleAt l ((i' : Int) - offset) = none := by
          unfold sampleAt
          split
          · exact List.getElem?_eq_none (by omega)
          · rfl
        rw [hn]; rfl
    · rw [if_neg (by tauto), if_neg hcc]
  · rw [forRange_none (by omega)]
    congr 1
    apply tab_congr
    intro c' i' _ hi'
    by_cases hcc : c' = c
    · rw [if_pos hcc]
      have hn : sampleAt l ((i' : Int) - offset) = none := by
        unfold sampleAt
        split
        · exact List.getElem?_eq_none (by omega)
        · rfl
      rw [hn]; rfl
    · rw [if_neg hcc]

theorem resizeList_map [Zero α] (length len : Nat) (f : Nat → α) : resizeList length ((List.range len).map f) = (List.range length).map (fun i => if i < len then f i else 0) := by
  unfold resizeList
  apply List.ext_getElem?
  intro i
  simp only [List.getElem?_append, List.getElem?_take, List.getElem?_map, List.getElem?_replicate, List.length_take, List.length_map, List.length_range]
  by_cases h1 : i < length
  · rw [List.getElem?_range h1]
    by_cases h2 : i < len
    · rw [List.getElem?_range h2, if_pos (by omega), if_pos h1]; simp [h2]
    · rw [if_neg (by omega), if_pos (by omega)]; simp [h2]
  · rw [List.getElem?_eq_none (l := List.range length) (by simpa using h1)]
    rw [if_neg (by omega), if_neg (by omega)]; rfl

theorem tab_resize [Zero α] {rate : ℝ} {n len : Nat} {f : Nat → Nat → α} (hn : 0 < n) (length : Nat) :
    (tab rate n len f).resize length = some (tab rate n length (fun c i => if i < len then f c i else 0)) := by
  unfold Wave.resize
  rw [if_pos (by rw [tab_channels]; exact hn)]
  congr 1
  by_cases h : length = len
  · rw [if_neg (by rw [h]; exact fun h => h rfl)]
    subst h
    show tab rate n length f = _
    apply tab_congr
    intro c i _ hi
    rw [if_pos hi]
  · rw [if_pos (by exact h)]
    unfold tab
    congr 1
    rw [List.map_map]
    apply List.map_congr_left
    intro c _
    exact resizeList_map _ _ _

end Fundsp.Wv
