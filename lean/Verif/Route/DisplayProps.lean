import Verif.Route.Display

/-! C120: what `display` says of a unit. -/

namespace Fundsp.Route
open Fundsp.Filter Fundsp.Delay
variable {i o : Nat}

/-! ## Lemmas -/

theorem mapM_forall {A B : Type} {f : A → Option B} : ∀ {l : List A} {r : List B}, l.mapM f = some r → List.Forall₂ (fun a b => f a = some b) l r
  | [], r, h => by
      rw [List.mapM_nil] at h
      cases h
      exact .nil
  | a :: l, r, h => by
      rw [List.mapM_cons] at h
      cases ha : f a with
      | none => rw [ha] at h; cases h
      | some b =>
        rw [ha] at h
        cases hl : l.mapM f with
        | none => rw [hl] at h; cases h
        | some q =>
          rw [hl] at h
          cases h
          exact .cons ha (mapM_forall hl)

theorem mapM_total {A B : Type} {f : A → Option B} : ∀ {l : List A}, (∀ a ∈ l, (f a).isSome) → (l.mapM f).isSome
  | [], _ => by rw [List.mapM_nil]; rfl
  | a :: l, h => by
      rw [List.mapM_cons]
      obtain ⟨b, hb⟩ := Option.isSome_iff_exists.mp (h a List.mem_cons_self)
      obtain ⟨q, hq⟩ := Option.isSome_iff_exists.mp (mapM_total fun x hx => h x (List.mem_cons_of_mem _ hx))
      rw [hb, hq]
      rfl

theorem near_add {a b : WithBot ℝ} (h : ¬ near a b) (hl : b < a) : b + ((1 / 100 : ℝ) : WithBot ℝ) < a := by
  induction a using WithBot.recBotCoe with
  | bot => exact absurd hl not_lt_bot
  | coe a =>
    induction b using WithBot.recBotCoe with
    | bot => rw [WithBot.bot_add]; exact WithBot.bot_lt_coe a
    | coe b =>
      have h' : ¬ |a - b| ≤ 1 / 100 := h
      have hl' : b < a := WithBot.coe_lt_coe.mp hl
      rw [abs_of_pos (by linarith)] at h'
      rw [← WithBot.coe_add, WithBot.coe_lt_coe]
      linarith

theorem near_symm {a b : WithBot ℝ} (h : near a b) : near b a := by
  induction a using WithBot.recBotCoe with
  | bot => exact h.elim
  | coe a =>
    induction b using WithBot.recBotCoe with
    | bot => exact h.elim
    | coe b =>
      have : |a - b| ≤ 1 / 100 := h
      rw [abs_sub_comm] at this
      exact this

theorem not_near_of_add {a b : WithBot ℝ} (h : b + ((1 / 100 : ℝ) : WithBot ℝ) < a) : ¬ near a b ∧ b < a := by
  induction a using WithBot.recBotCoe with
  | bot => exact absurd h not_lt_bot
  | coe a =>
    induction b using WithBot.recBotCoe with
    | bot => exact ⟨fun k => k, WithBot.bot_lt_coe a⟩
    | coe b =>
      rw [← WithBot.coe_add, WithBot.coe_lt_coe] at h
      refine ⟨fun k => ?_, WithBot.coe_lt_coe.mpr (by linarith)⟩
      have k' : |a - b| ≤ 1 / 100 := k
      rw [abs_of_pos (by linarith)] at k'
      linarith

theorem peak_snoc (l : List (WithBot ℝ × Nat)) (x) : peak (l ++ [x]) = peakStep (peak l) x := by
  unfold peak; rw [List.foldl_append]; rfl

theorem peakStep_fst (acc : WithBot ℝ × Option Nat) (x : WithBot ℝ × Nat) : (peakStep acc x).1 = max acc.1 x.1 := by
  unfold peakStep
  split
  · rfl
  · split
    · rename_i h; exact (max_eq_left h.le).symm
    · rename_i h; exact (max_eq_right (not_lt.mp h)).symm

theorem peak_max (l : List (WithBot ℝ × Nat)) : (∀ x ∈ l, x.1 ≤ (peak l).1) ∧ ((peak l).1 = ⊥ ∨ ∃ x ∈ l, x.1 = (peak l).1) := by
  induction l using List.reverseRecOn with
  | nil => exact ⟨fun x hx => by simp at hx, Or.inl rfl⟩
  | append_singleton l x ih =>
    rw [peak_snoc, peakStep_fst]
    refine ⟨fun y hy => ?_, ?_⟩
    · rcases List.mem_append.mp hy with h | h
      · exact (ih.1 y h).trans (le_max_left _ _)
      · rw [List.mem_singleton.mp h]; exact le_max_right _ _
    · rcases le_total (peak l).1 x.1 with h | h
      · rw [max_eq_right h]
        exact Or.inr ⟨x, List.mem_append_right _ (List.mem_singleton.mpr rfl), rfl⟩
      · rw [max_eq_left h]
        exact ih.2.imp id fun ⟨y, hy, e⟩ => ⟨y, List.mem_append_left _ hy, e⟩

/-- A frequency is only reported if it stands out. -/
theorem peak_at (l : List (WithBot ℝ × Nat)) (f : Nat) (h : (peak l).2 = some f) (hb : (peak l).1 ≠ ⊥) :
    ∃ pre post, l = pre ++ ((peak l).1, f) :: post ∧ ∀ y ∈ pre ++ post, y.1 + ((1 / 100 : ℝ) : WithBot ℝ) < (peak l).1 := by
  induction l using List.reverseRecOn with
  | nil => exact absurd rfl hb
  | append_singleton l x ih =>
    rw [peak_snoc] at h hb ⊢
    unfold peakStep at h hb ⊢
    split at h
    · cases h
    · rename_i hn
      rw [if_neg hn] at hb ⊢
      split at h
      · rename_i hl
        rw [if_pos hl] at hb ⊢
        obtain ⟨pre, post, e, k⟩ := ih h hb
        refine ⟨pre, post ++ [x], ?_, fun y hy => ?_⟩
        · conv_lhs => rw [e]
          simp
        · rw [← List.append_assoc] at hy
          rcases List.mem_append.mp hy with hy | hy
          · exact k y hy
          · rw [List.mem_singleton.mp hy]; exact near_add hn hl
      · rename_i hl
        rw [if_neg hl] at hb ⊢
        cases h
        refine ⟨l, [], rfl, fun y hy => ?_⟩
        rw [List.append_nil] at hy
        have hy' := (peak_max l).1 y hy
        have hx : (peak l).1 < x.1 := by
          refine lt_of_le_of_ne (not_lt.mp hl) fun e => hn ?_
          rw [e]
          have hb' : x.1 ≠ ⊥ := hb
          obtain ⟨a, ha⟩ := WithBot.ne_bot_iff_exists.mp hb'
          rw [← ha]
          show |a - a| ≤ 1 / 100
          norm_num
        have h2 := near_add (fun k => hn (near_symm k)) hx
        exact lt_of_le_of_lt (add_le_add_left hy' _) h2

/-- A frequency that stands out is reported. -/
theorem peak_of (pre post : List (WithBot ℝ × Nat)) (x : WithBot ℝ × Nat) (k : ∀ y ∈ pre ++ post, y.1 + ((1 / 100 : ℝ) : WithBot ℝ) < x.1)
    (hb : x.1 ≠ ⊥) : peak (pre ++ x :: post) = (x.1, some x.2) := by
  induction post using List.reverseRecOn with
  | nil =>
    rw [peak_snoc]
    have hx : (peak pre).1 + ((1 / 100 : ℝ) : WithBot ℝ) < x.1 := by
      rcases (peak_max pre).2 with e | ⟨y, hy, e⟩
      · rw [e, WithBot.bot_add]; exact bot_lt_iff_ne_bot.mpr hb
      · rw [← e]; exact k y (List.mem_append_left _ hy)
    obtain ⟨h1, h2⟩ := not_near_of_add hx
    unfold peakStep
    rw [if_neg fun q => h1 (near_symm q), if_neg h2.not_gt]
  | append_singleton post y ih =>
    rw [show pre ++ x :: (post ++ [y]) = (pre ++ x :: post) ++ [y] by simp, peak_snoc,
      ih fun z hz => k z (by rw [← List.append_assoc]; exact List.mem_append_left _ hz)]
    obtain ⟨h1, h2⟩ := not_near_of_add (k y (by simp))
    unfold peakStep
    rw [if_neg h1, if_pos h2]

theorem fill_get : ∀ (j : Nat) (c : Char) (l : List Char) (k : Nat) (hk : k < l.length),
    (fill j c l)[k]? = some (if k < j then l[k] else if k = j then c else '*')
  | _, _, [], k, hk => absurd hk (Nat.not_lt_zero k)
  | 0, c, x :: xs, 0, _ => by simp [fill]
  | 0, c, x :: xs, k + 1, hk => by
      have := fill_get 0 '*' xs k (by simpa using hk)
      simp only [fill, List.getElem?_cons_succ, this]
      simp
  | j + 1, c, x :: xs, 0, _ => by simp [fill]
  | j + 1, c, x :: xs, k + 1, hk => by
      have := fill_get j c xs k (by simpa using hk)
      simp only [fill, List.getElem?_cons_succ, this, List.getElem_cons_succ, Nat.add_lt_add_iff_right, Nat.add_right_cancel_iff]

theorem background_get (k : Nat) (hk : k < background.length) : background[k] = if k % 2 = 0 then '-' else ' ' := by
  simp [background]

theorem levels_forall {u : Asked} {r : List (WithBot ℝ × Nat)} (h : levels u = some r) :
    List.Forall₂ (fun (f : Nat) x => ∃ z, u.response f = some z ∧ x = (levelOf z, f)) displayFreqs r := by
  refine (mapM_forall h).imp fun f x e => ?_
  obtain ⟨z, hz, e'⟩ := Option.map_eq_some_iff.mp e
  exact ⟨z, hz, e'.symm⟩

theorem forall2_get {A B : Type} {P : A → B → Prop} : ∀ {l : List A} {r : List B}, List.Forall₂ P l r → ∀ (k : Nat) (a : A), l[k]? = some a →
    ∃ b, r[k]? = some b ∧ P a b
  | _, _, .nil, k, a, h => by simp at h
  | _, _, .cons hp _, 0, a, h => by
      simp only [List.getElem?_cons_zero, Option.some.injEq] at h ⊢
      subst h
      exact ⟨_, rfl, hp⟩
  | _, _, .cons _ ht, k + 1, a, h => by
      simp only [List.getElem?_cons_succ] at h ⊢
      exact forall2_get ht k a h

theorem forall2_snd {u : Asked} : ∀ {l : List Nat} {r : List (WithBot ℝ × Nat)},
    List.Forall₂ (fun (f : Nat) x => ∃ z, u.response f = some z ∧ x = (levelOf z, f)) l r → r.map Prod.snd = l
  | _, _, .nil => rfl
  | _, _, .cons ⟨_, _, e⟩ ht => by rw [List.map_cons, forall2_snd ht, e]

theorem forall2_mem {u : Asked} {l : List Nat} {r : List (WithBot ℝ × Nat)}
    (h : List.Forall₂ (fun (f : Nat) x => ∃ z, u.response f = some z ∧ x = (levelOf z, f)) l r) :
    (∀ f ∈ l, ∃ z, u.response f = some z ∧ (levelOf z, f) ∈ r) ∧ ∀ x ∈ r, ∃ z, x.2 ∈ l ∧ u.response x.2 = some z ∧ x.1 = levelOf z := by
  induction h with
  | nil => exact ⟨fun f hf => by simp at hf, fun x hx => by simp at hx⟩
  | @cons a b l r hp _ ih =>
    obtain ⟨z, hz, e⟩ := hp
    refine ⟨fun f hf => ?_, fun x hx => ?_⟩
    · rcases List.mem_cons.mp hf with rfl | hf
      · exact ⟨z, hz, by rw [e]; exact List.mem_cons_self⟩
      · obtain ⟨z', h1, h2⟩ := ih.1 f hf
        exact ⟨z', h1, List.mem_cons_of_mem _ h2⟩
    · rcases List.mem_cons.mp hx with rfl | hx
      · refine ⟨z, ?_, ?_, ?_⟩
        · rw [e]; exact List.mem_cons_self
        · rw [e]; exact hz
        · rw [e]
      · obtain ⟨z', h1, h2, h3⟩ := ih.2 x hx
        exact ⟨z', List.mem_cons_of_mem _ h1, h2, h3⟩

/-- What a graph is made of. -/
theorem display_graph {u : Asked} {d : Display} {g : Graph} (h : display u = some d) (hg : d.graph = some g) : ∃ r, levels u = some r ∧ g = graphOf r := by
  unfold display at h
  split at h
  · obtain ⟨r, hr, e⟩ := Option.map_eq_some_iff.mp h
    subst e
    cases hg
    exact ⟨r, hr, rfl⟩
  · cases h
    cases hg

theorem levelOf_ne_bot {z : ℂ} (h : z ≠ 0) : levelOf z ≠ ⊥ := by
  unfold levelOf
  rw [if_neg (by rw [norm_eq_zero]; exact h)]
  exact WithBot.coe_ne_bot

/-- Where some response is not zero, the peak is a number. -/
theorem peak_ne_bot {u : Asked} {r : List (WithBot ℝ × Nat)} (h : levels u = some r) (hz : ∃ f ∈ displayFreqs, u.response (f : Nat) ≠ some 0) :
    (peak r).1 ≠ ⊥ := by
  obtain ⟨f, hf, hn⟩ := hz
  obtain ⟨z, h1, h2⟩ := (forall2_mem (levels_forall h)).1 f hf
  have hz : z ≠ 0 := fun e => hn (by rw [h1, e])
  intro e
  have := (peak_max r).1 _ h2
  rw [e, le_bot_iff] at this
  exact levelOf_ne_bot hz this

/-! ## Specification -/

/-- The level of a response in decibels; that of zero is minus infinity. -/
noncomputable def decibels (z : ℂ) : WithBot ℝ := if z = 0 then ⊥ else ((20 * (Real.log ‖z‖ / Real.log 10) : ℝ) : WithBot ℝ)

/-- A cell of the graph, in a row that stands for level `L`, where the response has level `r`: it is blank if the response does not reach the row, and has a dot if
the response does not reach half way to the row above. -/
noncomputable def cell (row : Nat) (L : ℝ) (r : WithBot ℝ) : Char :=
  open Classical in
  if r < (L : WithBot ℝ) then (if row % 2 = 0 then '-' else ' ')
  else if (L : WithBot ℝ) < r ∧ r < ((L + 5 / 2 : ℝ) : WithBot ℝ) then '.' else '*'

theorem levelOf_eq (z : ℂ) : levelOf z = decibels z := by
  unfold levelOf decibels
  by_cases h : z = 0
  · rw [if_pos h, if_pos (by rw [h, norm_zero])]
  · rw [if_neg h, if_neg (by rw [norm_eq_zero]; exact h), Real.logb, mul_comm]

theorem column_cell (m : ℤ) (r : WithBot ℝ) (hr : r ≤ ((m : ℝ) : WithBot ℝ)) (k : Nat) (hk : k < 13) :
    (column (some m) r)[k]? = some (cell k (m - k * 5) r) := by
  have hl : k < background.length := by simpa [background] using hk
  induction r using WithBot.recBotCoe with
  | bot =>
    show background[k]? = _
    rw [List.getElem?_eq_getElem hl, background_get]
    unfold cell
    rw [if_pos (WithBot.bot_lt_coe _)]
  | coe r =>
    have hr' : r ≤ m := WithBot.coe_le_coe.mp hr
    show (fill ⌈((m : ℝ) - r) / 5⌉.toNat (if ((m : ℝ) - r) / 5 - ⌊((m : ℝ) - r) / 5⌋ ≤ 1 / 2 then '*' else '.') background)[k]? = _
    rw [fill_get _ _ _ _ hl, background_get]
    unfold cell
    simp only [WithBot.coe_lt_coe]
    generalize hx : ((m : ℝ) - r) / 5 = x
    have hx0 : 0 ≤ x := by rw [← hx]; apply div_nonneg <;> linarith
    have hr2 : r = m - 5 * x := by rw [← hx]; ring
    have hc0 : 0 ≤ ⌈x⌉ := Int.ceil_nonneg hx0
    have hcn : ((⌈x⌉.toNat : ℕ) : ℤ) = ⌈x⌉ := Int.toNat_of_nonneg hc0
    congr 1
    by_cases h1 : k < ⌈x⌉.toNat
    · have : (k : ℝ) < x := by
        have h2 : (k : ℤ) < ⌈x⌉ := by omega
        exact_mod_cast Int.lt_ceil.mp h2
      have q : r < m - k * 5 := by rw [hr2]; linarith
      rw [if_pos h1, if_pos q]
    · have hxk : x ≤ k := by
        have h2 : ⌈x⌉ ≤ (k : ℤ) := by omega
        exact_mod_cast Int.ceil_le.mp h2
      have q : ¬ r < m - k * 5 := by rw [hr2]; linarith
      rw [if_neg h1, if_neg q]
      by_cases h2 : k = ⌈x⌉.toNat
      · rw [if_pos h2]
        have hk2 : (k : ℤ) = ⌈x⌉ := by omega
        have hlt : (k : ℝ) - 1 < x := by
          have := Int.ceil_lt_add_one x
          rw [← hk2] at this
          push_cast at this
          linarith
        rcases eq_or_lt_of_le hxk with he | he
        · have hf : ⌊x⌋ = (k : ℤ) := by rw [he]; exact_mod_cast Int.floor_natCast k
          have q1 : x - ((⌊x⌋ : ℤ) : ℝ) ≤ 1 / 2 := by rw [hf, he]; norm_num
          have q2 : ¬ (m - k * 5 < r ∧ r < m - k * 5 + 5 / 2) := by rw [hr2, he]; intro q; linarith [q.1]
          rw [if_pos q1, if_neg q2]
        · have hf : ⌊x⌋ = (k : ℤ) - 1 := by
            rw [Int.floor_eq_iff]
            push_cast
            exact ⟨hlt.le, by linarith⟩
          rw [hf]
          push_cast
          by_cases h3 : x - ((k : ℝ) - 1) ≤ 1 / 2
          · have q2 : ¬ (m - k * 5 < r ∧ r < m - k * 5 + 5 / 2) := by rw [hr2]; intro q; linarith [q.2]
            rw [if_pos h3, if_neg q2]
          · have q2 : m - k * 5 < r ∧ r < m - k * 5 + 5 / 2 := by rw [hr2]; constructor <;> linarith [not_le.mp h3]
            rw [if_neg h3, if_pos q2]
      · rw [if_neg h2]
        have : x ≤ (k : ℝ) - 1 := by
          have h3 : ⌈x⌉ ≤ (k : ℤ) - 1 := by omega
          have := Int.ceil_le.mp h3
          push_cast at this
          exact this
        have q2 : ¬ (m - k * 5 < r ∧ r < m - k * 5 + 5 / 2) := by rw [hr2]; intro q; linarith [q.2]
        rw [if_neg q2]

/-! ## The property -/

/-- **C120**: `display` does not panic if the responses that are found at 440 Hz are also found at the frequencies of the columns. -/
theorem C120_total (u : Asked) (h : (u.response 440).isSome → ∀ f ∈ displayFreqs, (u.response (f : Nat)).isSome) : (display u).isSome := by
  unfold display
  split
  · rename_i hu
    have : (levels u).isSome := mapM_total fun f hf => by rw [Option.isSome_map]; exact h hu.2.2 f hf
    rw [Option.isSome_map]; exact this
  · rfl

/-- **C120** (with C119): so it does not panic for linear expressions. -/
theorem C120_linear {N : Node ℝ i (o + 1)} (R : ℝ → Rt N) (b : Fin (o + 1) → Bool) (h : ∀ f, Linear (R f) (fun _ => true) b) (latency : Option ℝ)
    (footprint : Nat) : (display ⟨i, o + 1, fun f => (R f).response 0, latency, footprint⟩).isSome := by
  refine C120_total _ fun h0 f _ => ?_
  cases hb : b 0 with
  | true =>
    obtain ⟨H, hH⟩ := C119_response_partial (h f) 0 hb
    show ((R f).response 0).isSome
    rw [show (R f).response 0 = some H from hH]; rfl
  | false =>
    have := (C119_constant_partial (h 440) 0 hb).1
    change ((R 440).response 0).isSome at h0
    rw [show (R 440).response 0 = none from this] at h0
    cases h0

/-- **C120**: the peak magnitude is the level of the greatest response over the columns. A frequency is given with it exactly if the response there stands out from all
others by more than 0.01 dB. `_partial`: not if the response is zero everywhere; see `C120_violation_silence`. -/
theorem C120_peak_partial {u : Asked} {d : Display} {g : Graph} (h : display u = some d) (hg : d.graph = some g)
    (hz : ∃ f ∈ displayFreqs, u.response (f : Nat) ≠ some 0) :
    (∀ f ∈ displayFreqs, ∃ z, u.response (f : Nat) = some z ∧ decibels z ≤ g.peak) ∧
    (∃ f ∈ displayFreqs, ∃ z, u.response (f : Nat) = some z ∧ decibels z = g.peak) ∧
    ∀ f, g.peakAt = some f ↔ f ∈ displayFreqs ∧ ∃ z, u.response (f : Nat) = some z ∧
      ∀ f' ∈ displayFreqs, f' ≠ f → ∃ z', u.response (f' : Nat) = some z' ∧ decibels z' + ((1 / 100 : ℝ) : WithBot ℝ) < decibels z := by
  obtain ⟨r, hr, rfl⟩ := display_graph h hg
  have hf := forall2_mem (levels_forall hr)
  have hb := peak_ne_bot hr hz
  have hs := forall2_snd (levels_forall hr)
  have hnd : displayFreqs.Nodup := by decide +kernel
  obtain ⟨p1, p2⟩ := peak_max r
  refine ⟨fun f hm => ?_, ?_, fun f => ⟨fun hp => ?_, fun ⟨hm, z, hz', hs'⟩ => ?_⟩⟩
  · obtain ⟨z, h1, h2⟩ := hf.1 f hm
    exact ⟨z, h1, by rw [← levelOf_eq]; exact p1 _ h2⟩
  · obtain ⟨x, hx, e⟩ := p2.resolve_left hb
    obtain ⟨z, h1, h2, h3⟩ := hf.2 x hx
    exact ⟨x.2, h1, z, h2, by rw [← levelOf_eq, ← h3]; exact e⟩
  · obtain ⟨pre, post, e, k⟩ := peak_at r f hp hb
    have hx : ((peak r).1, f) ∈ r := by
      have : ((peak r).1, f) ∈ pre ++ ((peak r).1, f) :: post := by simp
      rw [← e] at this
      exact this
    obtain ⟨z, h1, h2, h3⟩ := hf.2 _ hx
    refine ⟨h1, z, h2, fun f' hm' hn => ?_⟩
    obtain ⟨z', h4, h5⟩ := hf.1 f' hm'
    refine ⟨z', h4, ?_⟩
    rw [← levelOf_eq, ← levelOf_eq, ← show (peak r).1 = levelOf z from h3]
    rw [e] at h5
    rcases List.mem_append.mp h5 with h5 | h5
    · exact k _ (List.mem_append_left _ h5)
    · rcases List.mem_cons.mp h5 with h5 | h5
      · exact absurd (congrArg Prod.snd h5) hn
      · exact k _ (List.mem_append_right _ h5)
  · obtain ⟨z2, h1, h2⟩ := hf.1 f hm
    cases hz'.symm.trans h1
    obtain ⟨pre, post, e⟩ := List.append_of_mem h2
    have hk : ∀ y ∈ pre ++ post, y.1 + ((1 / 100 : ℝ) : WithBot ℝ) < levelOf z := by
      intro y hy
      have hyr : y ∈ r := by
        rw [e]
        rcases List.mem_append.mp hy with q | q
        · exact List.mem_append_left _ q
        · exact List.mem_append_right _ (List.mem_cons_of_mem _ q)
      obtain ⟨w, g1, g2, g3⟩ := hf.2 y hyr
      have hn : y.2 ≠ f := by
        intro q
        rw [e, List.map_append, List.map_cons] at hs
        rw [← hs, List.nodup_append] at hnd
        obtain ⟨_, hc, hd⟩ := hnd
        rcases List.mem_append.mp hy with hy | hy
        · exact hd y.2 (List.mem_map_of_mem hy) f List.mem_cons_self q
        · exact (List.nodup_cons.mp hc).1 (List.mem_map.mpr ⟨y, hy, q⟩)
      obtain ⟨z', q1, q2⟩ := hs' y.2 g1 hn
      cases q1.symm.trans g2
      rw [g3, levelOf_eq, levelOf_eq]
      exact q2
    have hzb : levelOf z ≠ ⊥ := by
      intro q
      have : post ++ pre ≠ [] := by
        intro q2
        rw [List.append_eq_nil_iff] at q2
        have hl := congrArg List.length hs
        rw [e, q2.1, q2.2] at hl
        exact absurd (show 1 = 48 from hl) (by decide)
      obtain ⟨y, hy⟩ := List.exists_mem_of_ne_nil _ this
      have := hk y (by
        rcases List.mem_append.mp hy with q | q
        · exact List.mem_append_right _ q
        · exact List.mem_append_left _ q)
      rw [q] at this
      exact not_lt_bot this
    show (peak r).2 = some f
    rw [e, peak_of pre post _ hk hzb]

/-- **C120**: the graph. Its top is the least multiple of ten decibels that the response does not exceed, the numbers beside the rows descend from it in steps of five
decibels a row, and every cell shows whether the response at the frequency of the column reaches the level of the row. `_partial`: as above. -/
theorem C120_graph_partial {u : Asked} {d : Display} {g : Graph} (h : display u = some d) (hg : d.graph = some g)
    (hz : ∃ f ∈ displayFreqs, u.response (f : Nat) ≠ some 0) :
    ∃ top : ℤ, 10 ∣ top ∧ (((top : ℝ) - 10 : ℝ) : WithBot ℝ) < g.peak ∧ g.peak ≤ ((top : ℝ) : WithBot ℝ) ∧
      (∀ row, row % 2 = 0 → g.label row = some (top - row * 5)) ∧
      ∀ k f z, displayFreqs[k]? = some f → u.response (f : Nat) = some z → ∀ row < 13,
        (g.column k)[row]? = some (cell row (top - row * 5) (decibels z)) := by
  obtain ⟨r, hr, rfl⟩ := display_graph h hg
  have hb := peak_ne_bot hr hz
  obtain ⟨p, hp⟩ := WithBot.ne_bot_iff_exists.mp hb
  have hm : maxDb (peak r).1 = some (⌈p / 10⌉ * 10) := by rw [← hp]; rfl
  have hle : p ≤ ((⌈p / 10⌉ * 10 : ℤ) : ℝ) := by push_cast; linarith [Int.le_ceil (p / 10)]
  refine ⟨⌈p / 10⌉ * 10, ⟨_, mul_comm _ _⟩, ?_, ?_, ?_, ?_⟩
  · show _ < (peak r).1
    rw [← hp, WithBot.coe_lt_coe]
    push_cast
    linarith [Int.ceil_lt_add_one (p / 10)]
  · show (peak r).1 ≤ _
    rw [← hp, WithBot.coe_le_coe]
    exact hle
  · intro row hrow
    show label (maxDb (peak r).1) row = _
    rw [hm]
    exact if_pos hrow
  · intro k f z hk hf row hrow
    obtain ⟨x, hx, z', h1, h2⟩ := forall2_get (levels_forall hr) k f hk
    cases hf.symm.trans h1
    show (column (maxDb (peak r).1) ((r[k]?.map Prod.fst).getD ⊥))[row]? = _
    rw [hm, hx, h2]
    show (column (some (⌈p / 10⌉ * 10)) (levelOf z))[row]? = _
    rw [column_cell _ _ _ _ hrow, levelOf_eq]
    rw [h2] at hx
    refine ((peak_max r).1 _ (List.mem_of_getElem? hx)).trans ?_
    rw [← hp, WithBot.coe_le_coe]
    exact hle

/-- **C120**: there is no graph without inputs, outputs or a response, and the other lines repeat what the unit says. -/
theorem C120_lines {u : Asked} {d : Display} (h : display u = some d) :
    (d.graph.isSome ↔ 0 < u.inputs ∧ 0 < u.outputs ∧ (u.response 440).isSome) ∧ d.inputs = u.inputs ∧ d.outputs = u.outputs ∧
      d.latency = u.latency.getD 0 ∧ d.footprint = u.footprint := by
  unfold display at h
  split at h
  · rename_i hu
    obtain ⟨r, hr, e⟩ := Option.map_eq_some_iff.mp h
    subst e
    exact ⟨⟨fun _ => hu, fun _ => rfl⟩, rfl, rfl, rfl, rfl⟩
  · rename_i hu
    cases h
    exact ⟨⟨fun q => (by cases q), fun q => absurd q hu⟩, rfl, rfl, rfl, rfl⟩

/-- **C120**: the marks of the axis are below the columns of the frequencies written under them. -/
theorem C120_axis : (axisTicks.toList.zip displayFreqs).filterMap (fun x => if x.1 = '|' then some x.2 else none) =
    [10, 50, 100, 200, 500, 1000, 2000, 5000, 10000, 20000] := by decide +kernel

/-- **C120, the code violates it**: if the response is zero at all columns, they are all filled to the top, the numbers beside the rows are the least that there are, and
22 kHz is given as the peak. -/
theorem C120_violation_silence (u : Asked) (hi : 0 < u.inputs) (ho : 0 < u.outputs) (h : ∀ f, u.response f = some 0) :
    ∃ d g, display u = some d ∧ d.graph = some g ∧ g.peak = ⊥ ∧ g.peakAt = some 22000 ∧ g.label 0 = some (-2 ^ 63) ∧
      ∀ k, g.column k = '.' :: List.replicate 12 '*' := by
  have hl : levels u = some (displayFreqs.map fun f => (⊥, f)) := by
    have e : (fun f : Nat => (u.response (f : ℝ)).map fun r => (levelOf r, f)) = fun f => some ((⊥ : WithBot ℝ), f) := by
      funext f
      rw [h]
      simp [levelOf]
    unfold levels
    rw [e]
    simp [displayFreqs]
  have hs : ∀ a q, peakStep (⊥, a) (⊥, q) = (⊥, some q) := by
    intro a q
    unfold peakStep
    have h1 : ¬ near ((⊥ : WithBot ℝ), a).1 ((⊥ : WithBot ℝ), q).1 := fun k => k
    rw [if_neg h1, if_neg (lt_irrefl _)]
  have hp : peak (displayFreqs.map fun f => (⊥, f)) = (⊥, some 22000) := by
    simp [peak, displayFreqs, hs]
  refine ⟨⟨some (graphOf (displayFreqs.map fun f => (⊥, f))), u.inputs, u.outputs, u.latency.getD 0, u.footprint⟩, graphOf (displayFreqs.map fun f => (⊥, f)), ?_,
    rfl, ?_, ?_, ?_, fun k => ?_⟩
  · unfold display
    rw [if_pos ⟨hi, ho, by rw [h]; rfl⟩, hl]
    rfl
  · show (peak _).1 = _; rw [hp]
  · show (peak _).2 = _; rw [hp]
  · show label (maxDb (peak _).1) 0 = _; rw [hp]; rfl
  · show column (maxDb (peak _).1) _ = _
    rw [hp]
    show fill 0 '.' background = _
    decide

/-- **C120, the code violates it**: of two responses, the greater one may have the lesser mark, a dot where the lesser one has a star. -/
theorem C120_violation_marks (m : ℤ) (k : Nat) (h0 : 1 ≤ k) (hk : k < 13) :
    (column (some m) ((m - k * 5 : ℝ) : WithBot ℝ))[k]? = some '*' ∧ (column (some m) ((m - k * 5 + 1 : ℝ) : WithBot ℝ))[k]? = some '.' := by
  have h0' : (1 : ℝ) ≤ k := by exact_mod_cast h0
  rw [column_cell _ _ (by rw [WithBot.coe_le_coe]; linarith) _ hk, column_cell _ _ (by rw [WithBot.coe_le_coe]; linarith) _ hk]
  unfold cell
  constructor
  · rw [if_neg (lt_irrefl _), if_neg (fun q => lt_irrefl _ q.1)]
  · rw [if_neg (by rw [WithBot.coe_lt_coe]; linarith), if_pos ⟨by rw [WithBot.coe_lt_coe]; linarith, by rw [WithBot.coe_lt_coe]; linarith⟩]

/-- `pass()`: the response is 1 everywhere. -/
example : ∃ d g, display ⟨1, 1, fun _ => some 1, some 0, 4⟩ = some d ∧ d.graph = some g ∧ g.peak = ((0 : ℝ) : WithBot ℝ) := by
  have ht : (display ⟨1, 1, fun _ => some 1, some 0, 4⟩).isSome := C120_total _ fun _ _ _ => rfl
  obtain ⟨d, hd⟩ := Option.isSome_iff_exists.mp ht
  obtain ⟨g, hg⟩ := Option.isSome_iff_exists.mp ((C120_lines hd).1.mpr ⟨by decide, by decide, rfl⟩)
  obtain ⟨_, ⟨f, _, z, hz, e⟩, _⟩ := C120_peak_partial hd hg ⟨10, by decide, by simp⟩
  refine ⟨d, g, hd, hg, ?_⟩
  cases hz
  rw [← e]
  simp [decibels]

/-- A lowpole filter. -/
example (cf : ℝ → ℝ) (c θ : ℝ → ℝ) : (display ⟨1, 1, fun f => (Rt.filter (lowpoleNode cf 0) (fun s : LowpoleSt ℝ => s.coeff = c f) 0
    (lowpoleResponse (c f) (θ f))).response 0, some 0, 4⟩).isSome :=
  C120_linear (N := lowpoleNode cf 0) (fun f => Rt.filter (lowpoleNode cf 0) (fun s : LowpoleSt ℝ => s.coeff = c f) 0 (lowpoleResponse (c f) (θ f)))
    (fun _ => true) (fun _ => .filter _ _ _ _) _ _

/-- `pass() * 0.0`: `C120_violation_silence`. -/
example : (Rt.unop (fun x => x * 0) (Sig.mulScalar 0) (Rt.multiPass 1)).response 0 = some 0 := by
  simp [Rt.response, Rt.unop, Rt.multiPass, chans, SFrame.at, Sig.mulScalar]

end Fundsp.Route
