import Verif.Wavetable.Model
import Verif.Chan.Props
import Verif.Math.Props

/-!
# Wavetables: property C62
-/

noncomputable section
namespace Fundsp.Wt

/-- A table set that can be read: at least three tables in order of increasing pitch, every wave a power of two long. -/
structure Valid (t : Table) : Prop where
  three : 3 ≤ t.length
  sorted : ∀ (i j : Nat) (a b : ℝ × List ℝ), t[i]? = some a → t[j]? = some b → i < j → a.1 < b.1
  pow2 : ∀ (i : Nat) (a : ℝ × List ℝ), t[i]? = some a → ∃ k, k ≤ 32 ∧ a.2.length = 2 ^ k

/-- The pitch of table `i`. -/
def pitch (t : Table) (i : Nat) : ℝ := (t.getD i (0, [])).1

theorem Valid.get {t : Table} (i : Nat) (hi : i < t.length) : ∃ a, t[i]? = some a ∧ a.1 = pitch t i := by
  refine ⟨t[i], List.getElem?_eq_getElem hi, ?_⟩
  unfold pitch
  rw [List.getD_eq_getElem?_getD, List.getElem?_eq_getElem hi]; rfl

theorem Valid.pitch_lt {t : Table} (h : Valid t) {i j : Nat} (hij : i < j) (hj : j < t.length) : pitch t i < pitch t j := by
  obtain ⟨a, ha, ha'⟩ := Valid.get (t := t) i (by omega)
  obtain ⟨b, hb, hb'⟩ := Valid.get (t := t) j hj
  rw [← ha', ← hb']
  exact h.sorted i j a b ha hb hij

theorem Valid.pitch_le {t : Table} (h : Valid t) {i j : Nat} (hij : i ≤ j) (hj : j < t.length) : pitch t i ≤ pitch t j := by
  rcases Nat.lt_or_ge i j with h1 | h1
  · exact (h.pitch_lt h1 hj).le
  · rw [show i = j by omega]

/-! ## Reading one wave -/

/-- Sample `j` of the wave extended periodically. -/
def periodic (wave : List ℝ) (j : ℤ) : ℝ := wave.getD (j % wave.length).toNat 0

/-- C62. Reading a wave interpolates the four samples around the phase in the periodic extension of the wave. -/
theorem C62_at (t : Table) (ht : Valid t) (i : Nat) (pw : ℝ × List ℝ) (hi : t[i]? = some pw) (phase : ℝ) (h0 : 0 ≤ phase) (h1 : phase ≤ 1)
    (n : Nat) (hn : (n : ℝ) ≤ pw.2.length * phase) (hn1 : pw.2.length * phase < n + 1) :
    at' t i phase = some (optimal4 (periodic pw.2 (n - 1)) (periodic pw.2 n) (periodic pw.2 (n + 1)) (periodic pw.2 (n + 2)) (pw.2.length * phase - n)) := by
  obtain ⟨k, hk, hl⟩ := ht.pow2 i pw hi
  have hf : ⌊(pw.2.length : ℝ) * phase⌋₊ = n := (Nat.floor_eq_iff (by positivity)).2 ⟨hn, hn1⟩
  unfold at'
  rw [hi]
  simp only [Option.bind_eq_bind, Option.bind_some, hf]
  have hm : ∀ x, x &&& (pw.2.length - 1) = x % pw.2.length := fun x => by rw [hl]; exact Nat.and_two_pow_sub_one_eq_mod x k
  have hp : 0 < pw.2.length := by rw [hl]; exact Nat.two_pow_pos k
  have hd : 2 ^ 64 = pw.2.length * 2 ^ (64 - k) := by rw [hl, ← Nat.pow_add]; congr 1; omega
  have hget : ∀ x, pw.2[x % pw.2.length]? = some (periodic pw.2 (x : ℤ)) := by
    intro x
    have hx : x % pw.2.length < pw.2.length := Nat.mod_lt _ hp
    rw [List.getElem?_eq_getElem hx]
    unfold periodic
    rw [show ((x : ℤ) % (pw.2.length : ℤ)).toNat = x % pw.2.length by rw [← Int.natCast_mod]; rfl, List.getD_eq_getElem?_getD, List.getElem?_eq_getElem hx]
    rfl
  have e0 : (n + 2 ^ 64 - 1) % 2 ^ 64 % pw.2.length = (n + pw.2.length - 1) % pw.2.length := by
    rw [Nat.mod_mod_of_dvd _ ⟨_, hd⟩, hd]
    have hq : 0 < 2 ^ (64 - k) := Nat.two_pow_pos _
    obtain ⟨q, hq'⟩ : ∃ q, 2 ^ (64 - k) = q + 1 := ⟨2 ^ (64 - k) - 1, by omega⟩
    rw [hq', Nat.mul_succ, show n + (pw.2.length * q + pw.2.length) - 1 = n + pw.2.length - 1 + pw.2.length * q by omega, Nat.add_mul_mod_self_left]
  have p0 : periodic pw.2 ((n + pw.2.length - 1 : Nat) : ℤ) = periodic pw.2 ((n : ℤ) - 1) := by
    unfold periodic
    rw [show ((n + pw.2.length - 1 : Nat) : ℤ) = (n : ℤ) - 1 + pw.2.length by omega, Int.add_emod_right]
  rw [hm, hm, hm, hm, e0, hget, p0, hget]
  simp only [Option.bind_some]
  rw [Nat.mod_add_mod, hget, Nat.mod_add_mod, hget]
  simp only [Option.bind_some, Nat.cast_add, Nat.cast_one, Nat.cast_ofNat]

theorem at_some (t : Table) (ht : Valid t) (i : Nat) (hi : i < t.length) (phase : ℝ) (h0 : 0 ≤ phase) (h1 : phase ≤ 1) : ∃ x, at' t i phase = some x := by
  obtain ⟨a, ha, _⟩ := Valid.get (t := t) i hi
  have hp : 0 ≤ (a.2.length : ℝ) * phase := by positivity
  exact ⟨_, C62_at t ht i a ha phase h0 h1 _ (Nat.floor_le hp) (Nat.lt_floor_add_one _)⟩

/-! ## Selecting the tables -/

/-- Index `i` is right for the frequency: it brackets the frequency, or the frequency is beyond the end. -/
structure Brackets (t : Table) (f : ℝ) (i : Nat) : Prop where
  le : i ≤ t.length - 3
  low : i = 0 ∨ pitch t i ≤ f
  high : i = t.length - 3 ∨ f ≤ pitch t (i + 1)

theorem search_brackets (t : Table) (ht : Valid t) (f : ℝ) : ∀ m i0 i1, i1 - i0 ≤ m → i0 ≤ i1 → i1 ≤ t.length - 3 → (i0 = 0 ∨ pitch t i0 ≤ f) →
    (i1 = t.length - 3 ∨ f < pitch t i1) → ∃ i, search t f m i0 i1 = some i ∧ Brackets t f i := by
  have h3 := ht.three
  intro m
  have hend : ∀ i, i ≤ t.length - 3 → (i = 0 ∨ pitch t i ≤ f) → (i = t.length - 3 ∨ f < pitch t i) → Brackets t f i := by
    intro i hi hl hh
    refine ⟨hi, hl, ?_⟩
    rcases hh with hh | hh
    · exact Or.inl hh
    · exact Or.inr (hh.le.trans (ht.pitch_le (by omega) (by omega)))
  induction m with
  | zero =>
    intro i0 i1 h1 h2 hi hl hh
    have : i0 = i1 := by omega
    subst this
    exact ⟨i0, rfl, hend i0 hi hl hh⟩
  | succ m ih =>
    intro i0 i1 h1 h2 hi hl hh
    unfold search
    by_cases hlt : i0 < i1
    · rw [if_pos hlt]
      have hs : (i0 + i1) >>> 1 = (i0 + i1) / 2 := Nat.shiftRight_eq_div_pow _ 1
      simp only [hs]
      obtain ⟨a, ha, ha'⟩ := Valid.get (t := t) ((i0 + i1) / 2) (by omega)
      obtain ⟨b, hb, hb'⟩ := Valid.get (t := t) ((i0 + i1) / 2 + 1) (by omega)
      rw [ha, hb]
      simp only [ha', hb']
      by_cases c1 : f < pitch t ((i0 + i1) / 2)
      · rw [if_pos c1]
        exact ih _ _ (by omega) (by omega) (by omega) hl (Or.inr c1)
      · rw [if_neg c1]
        by_cases c2 : f < pitch t ((i0 + i1) / 2 + 1)
        · rw [if_pos c2]
          exact ⟨_, rfl, by omega, Or.inr (not_lt.1 c1), Or.inr c2.le⟩
        · rw [if_neg c2]
          exact ih _ _ (by omega) (by omega) hi (Or.inr (not_lt.1 c2)) hh
    · rw [if_neg hlt]
      have : i0 = i1 := by omega
      subst this
      exact ⟨i0, rfl, hend i0 hi hl hh⟩

theorem searchAll_brackets (t : Table) (ht : Valid t) (f : ℝ) : ∃ i, searchAll t f = some i ∧ Brackets t f i := by
  have h3 := ht.three
  unfold searchAll
  rw [if_neg (by omega)]
  exact search_brackets t ht f _ 0 _ (by omega) (by omega) (le_refl _) (Or.inl rfl) (Or.inl rfl)

theorem tableIndex_brackets (t : Table) (ht : Valid t) (hint : Nat) (hh : hint ≤ t.length - 3) (f : ℝ) : ∃ i, tableIndex t hint f = some i ∧ Brackets t f i := by
  have h3 := ht.three
  obtain ⟨a, ha, ha'⟩ := Valid.get (t := t) hint (by omega)
  obtain ⟨b, hb, hb'⟩ := Valid.get (t := t) (hint + 1) (by omega)
  unfold tableIndex
  rw [ha, hb]
  simp only [ha', hb']
  split
  · rename_i h1
    split
    · rename_i h2
      exact ⟨hint, rfl, hh, Or.inr h1, Or.inr h2⟩
    · exact searchAll_brackets t ht f
  · exact searchAll_brackets t ht f

theorem read_eq (t : Table) (ht : Valid t) (hint i : Nat) (f phase : ℝ) (hi : tableIndex t hint f = some i) (hle : i ≤ t.length - 3)
    (x y : ℝ) (hx : at' t (i + 1) phase = some x) (hy : at' t (i + 2) phase = some y) :
    read t hint f phase = some ((1 - Math.clamp01 (Math.delerp (pitch t i) (pitch t (i + 1)) f)) * x + Math.clamp01 (Math.delerp (pitch t i) (pitch t (i + 1)) f) * y, i) := by
  have h3 := ht.three
  obtain ⟨a, ha, ha'⟩ := Valid.get (t := t) i (by omega)
  obtain ⟨b, hb, hb'⟩ := Valid.get (t := t) (i + 1) (by omega)
  unfold read
  simp only [hi, Option.bind_eq_bind, Option.bind_some, ha, hb, hx, hy, ha', hb']

/-- C62. Reading never indexes out of bounds, and the new hint is again a valid hint. -/
theorem C62_in_bounds (t : Table) (ht : Valid t) (hint : Nat) (hh : hint ≤ t.length - 3) (f phase : ℝ) (h0 : 0 ≤ phase) (h1 : phase ≤ 1) :
    ∃ v hint', read t hint f phase = some (v, hint') ∧ hint' ≤ t.length - 3 := by
  have h3 := ht.three
  obtain ⟨i, hi, hb⟩ := tableIndex_brackets t ht hint hh f
  have hle := hb.le
  obtain ⟨x, hx⟩ := at_some t ht (i + 1) (by omega) phase h0 h1
  obtain ⟨y, hy⟩ := at_some t ht (i + 2) (by omega) phase h0 h1
  exact ⟨_, i, read_eq t ht hint i f phase hi hle x y hx hy, hle⟩

/-- Reading at a sequence of frequencies and phases, passing the hint along. -/
def readAll (t : Table) : Nat → List (ℝ × ℝ) → Option (List ℝ)
  | _, [] => some []
  | hint, (f, phase) :: rest =>
    match read t hint f phase with
    | none => none
    | some (v, hint') => (readAll t hint' rest).map (v :: ·)

theorem mix_le (a b f : ℝ) (hab : a < b) (hf : f ≤ a) : Math.clamp01 (Math.delerp a b f) = 0 := by
  unfold Math.clamp01 Math.delerp
  have : (f - a) / (b - a) ≤ 0 := div_nonpos_of_nonpos_of_nonneg (by linarith) (by linarith)
  rw [max_eq_right this]; norm_num

theorem mix_ge (a b f : ℝ) (hab : a < b) (hf : b ≤ f) : Math.clamp01 (Math.delerp a b f) = 1 := by
  unfold Math.clamp01 Math.delerp
  have : 1 ≤ (f - a) / (b - a) := by rw [le_div_iff₀ (by linarith)]; linarith
  exact min_eq_right (this.trans (le_max_left _ _))

theorem mix_mid (a b f : ℝ) (hab : a < b) (h1 : a ≤ f) (h2 : f ≤ b) : Math.clamp01 (Math.delerp a b f) = (f - a) / (b - a) := by
  unfold Math.clamp01 Math.delerp
  rw [max_eq_left (div_nonneg (by linarith) (by linarith)), min_eq_left]
  rw [div_le_one (by linarith)]; linarith

/-- What a read at the given frequency and phase should be: below the first pitch the second table; between the pitches of tables `i` and `i + 1` a linear mix
of tables `i + 1` and `i + 2`; from the last pitch but one on, the last table. -/
inductive Heard (t : Table) (f phase : ℝ) : ℝ → Prop
  | below (v : ℝ) : f ≤ pitch t 0 → at' t 1 phase = some v → Heard t f phase v
  | between (i : Nat) (x y : ℝ) : i + 2 < t.length → pitch t i ≤ f → f ≤ pitch t (i + 1) → at' t (i + 1) phase = some x → at' t (i + 2) phase = some y →
      Heard t f phase (x + (f - pitch t i) / (pitch t (i + 1) - pitch t i) * (y - x))
  | above (v : ℝ) : pitch t (t.length - 2) ≤ f → at' t (t.length - 1) phase = some v → Heard t f phase v

/-- C62. With any valid hint, the value read is the mix of the tables around the frequency. -/
theorem C62_select (t : Table) (ht : Valid t) (hint : Nat) (hh : hint ≤ t.length - 3) (f phase v : ℝ) (hint' : Nat)
    (h : read t hint f phase = some (v, hint')) (h0 : 0 ≤ phase) (h1 : phase ≤ 1) : Heard t f phase v := by
  have h3 := ht.three
  obtain ⟨i, hi, hb⟩ := tableIndex_brackets t ht hint hh f
  have hle := hb.le
  obtain ⟨x, hx⟩ := at_some t ht (i + 1) (by omega) phase h0 h1
  obtain ⟨y, hy⟩ := at_some t ht (i + 2) (by omega) phase h0 h1
  rw [read_eq t ht hint i f phase hi hle x y hx hy] at h
  have hv := (Prod.mk.inj (Option.some.inj h)).1
  have hp := ht.pitch_lt (show i < i + 1 by omega) (by omega)
  rcases le_total f (pitch t i) with c | c
  · rcases hb.low with l | l
    · subst l
      rw [mix_le _ _ _ hp c] at hv
      rw [show v = x by rw [← hv]; ring]
      exact Heard.below _ c hx
    · have hf : f = pitch t i := le_antisymm c l
      have := Heard.between (t := t) i x y (by omega) l (c.trans hp.le) hx hy
      rw [mix_le _ _ _ hp c] at hv
      rw [show v = x + (f - pitch t i) / (pitch t (i + 1) - pitch t i) * (y - x) by rw [← hv, hf]; ring]
      exact this
  · rcases le_total f (pitch t (i + 1)) with d | d
    · rw [mix_mid _ _ _ hp c d] at hv
      rw [show v = x + (f - pitch t i) / (pitch t (i + 1) - pitch t i) * (y - x) by rw [← hv]; ring]
      exact Heard.between i x y (by omega) c d hx hy
    · rw [mix_ge _ _ _ hp d] at hv
      rcases hb.high with l | l
      · rw [show v = y by rw [← hv]; ring]
        refine Heard.above _ ?_ ?_
        · rw [show t.length - 2 = i + 1 by omega]; exact d
        · rw [show t.length - 1 = i + 2 by omega]; exact hy
      · have hf : f = pitch t (i + 1) := le_antisymm l d
        rw [show v = x + (f - pitch t i) / (pitch t (i + 1) - pitch t i) * (y - x) by
          rw [← hv, hf, div_self (by linarith)]; ring]
        exact Heard.between i x y (by omega) c l hx hy

/-- What should be heard is unique. -/
theorem heard_unique (t : Table) (ht : Valid t) (f phase : ℝ) {v v' : ℝ} (h : Heard t f phase v) (h' : Heard t f phase v') : v = v' := by
  have h3 := ht.three
  have key : ∀ i j : Nat, i < j → j + 2 < t.length → f ≤ pitch t (i + 1) → pitch t j ≤ f → j = i + 1 ∧ f = pitch t j := by
    intro i j hij hj a b
    have : ¬ i + 1 < j := fun c => by have := ht.pitch_lt c (by omega); linarith
    have : j = i + 1 := by omega
    subst this
    exact ⟨rfl, le_antisymm a b⟩
  have bb : ∀ i j x y x' y', i < j → j + 2 < t.length → pitch t i ≤ f → f ≤ pitch t (i + 1) → pitch t j ≤ f →
      at' t (i + 1) phase = some x → at' t (i + 2) phase = some y → at' t (j + 1) phase = some x' → at' t (j + 2) phase = some y' →
      x + (f - pitch t i) / (pitch t (i + 1) - pitch t i) * (y - x) = x' + (f - pitch t j) / (pitch t (j + 1) - pitch t j) * (y' - x') := by
    intro i j x y x' y' hij hj a b c hx hy hx' hy'
    obtain ⟨rfl, hf⟩ := key i j hij hj b c
    have hlt := ht.pitch_lt (show i < i + 1 by omega) (by omega)
    rw [hf, div_self (by linarith), sub_self, zero_div]
    rw [hy] at hx'
    cases hx'
    ring
  have b0 : ∀ i x y v, i + 2 < t.length → pitch t i ≤ f → f ≤ pitch t 0 → at' t (i + 1) phase = some x → at' t (i + 2) phase = some y → at' t 1 phase = some v →
      v = x + (f - pitch t i) / (pitch t (i + 1) - pitch t i) * (y - x) := by
    intro i x y v hi a b hx hy hv
    have : i = 0 := by
      by_contra c
      have := ht.pitch_lt (show 0 < i by omega) (by omega)
      linarith
    subst this
    rw [hv] at hx; cases hx
    rw [show f = pitch t 0 from le_antisymm b a]; ring
  have b1 : ∀ i x y v, i + 2 < t.length → f ≤ pitch t (i + 1) → pitch t (t.length - 2) ≤ f → at' t (i + 1) phase = some x → at' t (i + 2) phase = some y →
      at' t (t.length - 1) phase = some v → v = x + (f - pitch t i) / (pitch t (i + 1) - pitch t i) * (y - x) := by
    intro i x y v hi a b hx hy hv
    have : i + 1 = t.length - 2 := by
      by_contra c
      have := ht.pitch_lt (show i + 1 < t.length - 2 by omega) (by omega)
      linarith
    rw [show t.length - 1 = i + 2 by omega, hy] at hv
    cases hv
    have hlt := ht.pitch_lt (show i < i + 1 by omega) (by omega)
    rw [show f = pitch t (i + 1) from le_antisymm a (this ▸ b), div_self (by linarith)]; ring
  have bl : f ≤ pitch t 0 → pitch t (t.length - 2) ≤ f → False := fun a b => by
    have := ht.pitch_lt (show 0 < t.length - 2 by omega) (by omega)
    linarith
  cases h with
  | below v a b => cases h' with
    | below v a' b' => rw [b] at b'; exact Option.some.inj b'
    | between j x y a' b' c' d' e' => exact b0 j x y v a' b' a d' e' b
    | above v a' b' => exact (bl a a').elim
  | between i x y a b c d e => cases h' with
    | below v a' b' => exact (b0 i x y _ a b a' d e b').symm
    | between j x' y' a' b' c' d' e' =>
      rcases Nat.lt_trichotomy i j with l | l | l
      · exact bb i j x y x' y' l a' b c b' d e d' e'
      · subst l
        rw [d] at d'; rw [e] at e'; cases d'; cases e'; rfl
      · exact (bb j i x' y' x y l a b' c' b d' e' d e).symm
    | above v a' b' => exact (b1 i x y _ a c a' d e b').symm
  | above v a b => cases h' with
    | below v a' b' => exact (bl a' a).elim
    | between j x y a' b' c' d' e' => exact b1 j x y v a' c' a d' e' b
    | above v a' b' => rw [b] at b'; exact Option.some.inj b'

/-- C62. The hint only saves time: any two valid hints read the same value. -/
theorem C62_hint (t : Table) (ht : Valid t) (hint₁ hint₂ : Nat) (hh₁ : hint₁ ≤ t.length - 3) (hh₂ : hint₂ ≤ t.length - 3) (f phase : ℝ) (h0 : 0 ≤ phase) (h1 : phase ≤ 1) :
    (read t hint₁ f phase).map Prod.fst = (read t hint₂ f phase).map Prod.fst := by
  obtain ⟨v, i, e, _⟩ := C62_in_bounds t ht hint₁ hh₁ f phase h0 h1
  obtain ⟨v', i', e', _⟩ := C62_in_bounds t ht hint₂ hh₂ f phase h0 h1
  rw [e, e']
  exact congrArg some (heard_unique t ht f phase (C62_select t ht hint₁ hh₁ f phase v i e h0 h1) (C62_select t ht hint₂ hh₂ f phase v' i' e' h0 h1))

/-- C62. Away from the pitches of the tables the selected table itself does not depend on the hint: it is the one found by searching. -/
theorem C62_hint_index_partial (t : Table) (ht : Valid t) (hint : Nat) (hh : hint ≤ t.length - 3) (f : ℝ) (hf : ∀ i, i < t.length → f ≠ pitch t i) :
    tableIndex t hint f = searchAll t f := by
  have h3 := ht.three
  obtain ⟨i, hi, a⟩ := tableIndex_brackets t ht hint hh f
  obtain ⟨j, hj, b⟩ := searchAll_brackets t ht f
  have key : ∀ i j, Brackets t f i → Brackets t f j → ¬ i < j := by
    intro i j a b hij
    have := b.le
    rcases a.high with h | h
    · omega
    · rcases b.low with l | l
      · omega
      · have := ht.pitch_le (show i + 1 ≤ j by omega) (by omega)
        exact hf (i + 1) (by omega) (le_antisymm h (this.trans l))
  rw [hi, hj]
  have := key i j a b
  have := key j i b a
  congr 1; omega

/-- C62. Reading a whole sequence of frequencies and phases, starting with hint zero as the synthesizers do, never fails and every value is the one heard at its own frequency and phase. -/
theorem C62_run (t : Table) (ht : Valid t) (l : List (ℝ × ℝ)) (hl : ∀ p ∈ l, 0 ≤ p.2 ∧ p.2 ≤ 1) :
    ∃ vs, readAll t 0 l = some vs ∧ List.Forall₂ (fun p v => Heard t p.1 p.2 v) l vs := by
  have : ∀ l hint, hint ≤ t.length - 3 → (∀ p ∈ l, 0 ≤ p.2 ∧ p.2 ≤ (1 : ℝ)) → ∃ vs, readAll t hint l = some vs ∧ List.Forall₂ (fun p v => Heard t p.1 p.2 v) l vs := by
    intro l
    induction l with
    | nil => intro hint _ _; exact ⟨[], rfl, .nil⟩
    | cons p rest ih =>
      intro hint hh hl
      obtain ⟨h0, h1⟩ := hl p (List.mem_cons_self ..)
      obtain ⟨v, h', e, hle⟩ := C62_in_bounds t ht hint hh p.1 p.2 h0 h1
      obtain ⟨vs, e', f'⟩ := ih h' hle (fun q hq => hl q (List.mem_cons_of_mem _ hq))
      refine ⟨v :: vs, ?_, .cons (C62_select t ht hint hh p.1 p.2 v h' e h0 h1) f'⟩
      obtain ⟨f, phase⟩ := p
      unfold readAll
      rw [e]
      simp only [e']
      rfl
  exact this l 0 (by omega) hl

end Fundsp.Wt
