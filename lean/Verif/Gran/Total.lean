import Verif.Gran.Props

/-!
# C80: when spawning ends, how blocks and ticks compare, reset
-/

noncomputable section
namespace Fundsp.Gran
open Fundsp.Seq
variable {R U : Type} {n : Nat}

/-! ## Rounds -/

theorem voiceLoop_more {c : Cfg R U} {before : ℝ} {v : Nat} : ∀ {fuel fuel' : Nat} {s s' : Voices R} {gs : List (Grain U)}, fuel ≤ fuel' →
    voiceLoop c before v fuel s = .ok (s', gs) → voiceLoop c before v fuel' s = .ok (s', gs) := by
  intro fuel
  induction fuel with
  | zero =>
    intro fuel' s s' gs _ h
    rcases voiceLoop_cases h with ⟨h1, rfl, rfl⟩ | ⟨f, _, _, _, e, _⟩
    · cases fuel' <;> (unfold voiceLoop; rw [if_neg (not_lt.2 h1)])
    · omega
  | succ fuel ih =>
    intro fuel' s s' gs hf h
    rcases voiceLoop_cases h with ⟨h1, rfl, rfl⟩ | ⟨f, s1, g, gs', e, hb, hi, hl, rfl⟩
    · cases fuel' <;> (unfold voiceLoop; rw [if_neg (not_lt.2 h1)])
    · obtain rfl : fuel = f := by omega
      obtain ⟨f', rfl⟩ : ∃ f', fuel' = f' + 1 := ⟨fuel' - 1, by omega⟩
      unfold voiceLoop
      rw [if_pos hb, hi]
      simp only
      rw [ih (by omega) hl]

theorem voicesLoop_more {c : Cfg R U} {before : ℝ} {fuel fuel' : Nat} (hf : fuel ≤ fuel') (vs : List Nat) : ∀ {s s' : Voices R} {gs : List (Grain U)},
    voicesLoop c before fuel vs s = .ok (s', gs) → voicesLoop c before fuel' vs s = .ok (s', gs) := by
  induction vs with
  | nil => intro s s' gs h; exact h
  | cons v vs ih =>
    intro s s' gs h
    unfold voicesLoop at h ⊢
    split at h
    · cases h
    · rename_i s1 gs1 h1
      split at h
      · cases h
      · rename_i s2 gs2 h2
        rw [voiceLoop_more hf h1]
        simp only
        rw [ih h2]
        exact h

/-- Generators that return a fade of at least zero and a grain longer than the fade by `δ` at least. -/
def Steady (c : Cfg R U) (δ : ℝ) : Prop := 0 < δ ∧ ∀ t b v x y z, 0 ≤ (c.generator t b v x y z).2.1 ∧ (c.generator t b v x y z).2.1 + δ ≤ (c.generator t b v x y z).1

theorem instantiate_total {c : Cfg R U} {δ : ℝ} (hc : Steady c δ) (v : Nat) (s : Voices R) (h : v = 0 ∨ s.next v ≠ 0) :
    ∃ s' g, instantiate c v s = .ok (s', g) ∧ s.next v + δ ≤ s'.next v := by
  obtain ⟨h1, h2⟩ := hc.2 (s.next v) (s.next v / c.beatLength) (voiceD c v * 2 - 1) (clamp11 (c.texture (helix c v (s.next v) s.rnd).1).1)
    (clamp11 (c.texture (helix c v (s.next v) s.rnd).1).2.1) (clamp11 (c.texture (helix c v (s.next v) s.rnd).1).2.2)
  have e1 : 0 ≤ (request c v (s.next v) s.rnd).1.2.1 := h1
  have e2 : (request c v (s.next v) s.rnd).1.2.1 + δ ≤ (request c v (s.next v) s.rnd).1.1 := h2
  have hδ := hc.1
  unfold instantiate
  simp only
  rw [if_neg (not_not.2 e1), if_neg (not_not.2 (by linarith)), if_neg (by rintro ⟨a, b⟩; rcases h with h | h; exacts [b h, h a])]
  refine ⟨_, _, rfl, ?_⟩
  simp only [Function.update_self]
  linarith

theorem voiceLoop_total {c : Cfg R U} {δ before : ℝ} (hc : Steady c δ) {v : Nat} : ∀ (fuel : Nat) (s : Voices R), (v = 0 ∨ s.next v ≠ 0) → 0 ≤ s.next v →
    before ≤ s.next v + fuel * δ → ∃ s' gs, voiceLoop c before v fuel s = .ok (s', gs) := by
  intro fuel
  induction fuel with
  | zero =>
    intro s _ _ hb
    unfold voiceLoop
    rw [if_neg (by push_cast at hb; linarith)]
    exact ⟨_, _, rfl⟩
  | succ fuel ih =>
    intro s h h0 hb
    unfold voiceLoop
    by_cases hlt : s.next v < before
    · rw [if_pos hlt]
      obtain ⟨s1, g, e, hd⟩ := instantiate_total hc v s h
      rw [e]
      have hδ := hc.1
      obtain ⟨s2, gs, e2⟩ := ih s1 (.inr (by linarith)) (by linarith) (by push_cast at hb; linarith)
      simp only
      rw [e2]
      exact ⟨_, _, rfl⟩
    · rw [if_neg hlt]; exact ⟨_, _, rfl⟩

theorem voicesLoop_total {c : Cfg R U} {d δ before : ℝ} (hc : Steady c δ) {fuel : Nat} (hf : before ≤ fuel * δ) (vs : List Nat) (hvs : ∀ v ∈ vs, v < c.voices) :
    ∀ {log : List (Grain U)} {s : Voices R}, Inv c d log s → ∃ s' gs, voicesLoop c before fuel vs s = .ok (s', gs) := by
  induction vs with
  | nil => intro log s _; exact ⟨_, _, rfl⟩
  | cons v vs ih =>
    intro log s hs
    have hv := hvs v (List.mem_cons_self ..)
    have hp := hs.pos v hv
    obtain ⟨s1, gs1, e1⟩ := voiceLoop_total (before := before) hc fuel s (.inr hp.ne') hp.le (by linarith)
    obtain ⟨s2, gs2, e2⟩ := ih (fun u hu => hvs u (List.mem_cons_of_mem _ hu)) (inv_voiceLoop hv fuel hs e1).1
    unfold voicesLoop
    rw [e1]
    simp only
    rw [e2]
    exact ⟨_, _, rfl⟩

theorem instantiateVoices_total {c : Cfg R U} {δ time before : ℝ} (hc : Steady c δ) {fuel : Nat} (hf : before ≤ fuel * δ) {log : List (Grain U)} {s : Voices R}
    (hs : Between c time log s) (hb : time ≤ before) : ∃ s' gs, instantiateVoices c fuel before s = .ok (s', gs) := by
  unfold instantiateVoices
  rcases hs with ⟨h1, h2, h3⟩ | ⟨h1, h2⟩ | ⟨g0, l, h1, h2, h3, h4, h5, h6⟩
  · subst h2
    rcases Nat.eq_zero_or_pos c.voices with hn | hn
    · rw [hn]; exact ⟨_, _, rfl⟩
    rw [h1] at hb
    rcases hb.lt_or_eq with hb | hb
    · obtain ⟨k, hk⟩ : ∃ k, c.voices = k + 1 := ⟨c.voices - 1, by omega⟩
      have hr : List.range c.voices = 0 :: (List.range k).map Nat.succ := by rw [hk, List.range_succ_eq_map]
      have hvs : ∀ v ∈ (List.range k).map Nat.succ, v < c.voices := by
        intro v hv
        obtain ⟨u, hu, rfl⟩ := List.mem_map.1 hv
        have := List.mem_range.1 hu
        omega
      rw [hr]
      obtain ⟨s1, gs1, e1⟩ := voiceLoop_total (before := before) (v := 0) hc fuel s (.inl rfl) (h3 0 hn).ge (by rw [h3 0 hn]; linarith)
      have hi : ∃ d log, Inv c d log s1 := by
        rcases voiceLoop_cases e1 with ⟨a1, _, _⟩ | ⟨f, s0, g, gs', _, _, hi, hl, rfl⟩
        · rw [h3 0 hn] at a1; linarith
        · exact ⟨_, _, (inv_voiceLoop hn f (inv_first hn (h3 0 hn) hi).1 hl).1⟩
      obtain ⟨d, log, hi⟩ := hi
      obtain ⟨s2, gs2, e2⟩ := voicesLoop_total hc hf _ hvs hi
      unfold voicesLoop
      rw [e1]
      simp only
      rw [e2]
      exact ⟨_, _, rfl⟩
    · rw [voicesLoop_idle _ _ (fun v hv => by rw [h3 v (List.mem_range.1 hv), hb])]
      exact ⟨_, _, rfl⟩
  · rw [h1]; exact ⟨_, _, rfl⟩
  · exact voicesLoop_total hc hf _ (fun v hv => List.mem_range.1 hv) h4

section
variable {X : Node ℝ 0 n} {H : Heap ℝ X.σ} {ease : Fade → ℝ → ℝ} {setRate : ℝ → X.σ → X.σ} {c : Cfg R X.σ} {fuel : Nat}

theorem step_of {s : St R X.σ} {o : Op n} {v : Voices R} {gs : List (Grain X.σ)}
    (h : instantiateVoices c fuel (s.time + o.samples / s.sr) s.voices = .ok (v, gs)) : ∃ s' fs, s.step X H ease setRate c fuel o = .ok (s', gs, fs) := by
  unfold St.step St.spawn
  simp only
  rw [h]
  cases o <;> exact ⟨_, _, rfl⟩

theorem run_error {s : St R X.σ} {o : Op n} {e : Stop} {os : List (Op n)}
    (h : instantiateVoices c fuel (s.time + o.samples / s.sr) s.voices = .error e) : St.run X H ease setRate c fuel (o :: os) s = .error e := by
  unfold St.run St.step St.spawn
  simp only
  rw [h]

theorem step_more {fuel' : Nat} (hf : fuel ≤ fuel') {s : St R X.σ} {o : Op n} {r : St R X.σ × List (Grain X.σ) × List (Frame ℝ n)}
    (h : s.step X H ease setRate c fuel o = .ok r) : s.step X H ease setRate c fuel' o = .ok r := by
  have hst := (step_ok (gs := r.2.1) (fs := r.2.2) (s' := r.1) h).1
  have e := voicesLoop_more hf _ hst
  unfold St.step St.spawn at h ⊢
  simp only at h ⊢
  have e' : instantiateVoices c fuel' (s.time + o.samples / s.sr) s.voices = .ok (r.1.voices, r.2.1) := e
  rw [hst] at h
  rw [e']
  exact h

theorem run_total {sr δ : ℝ} (hsr : 0 < sr) (hc : Steady c δ) (ops : List (Op n)) : ∀ {s : St R X.σ} {log : List (Grain X.σ)}, s.sr = sr →
    Between c s.time log s.voices → s.time + total ops sr ≤ fuel * δ → ∃ r, St.run X H ease setRate c fuel ops s = .ok r := by
  induction ops with
  | nil => intro s log _ _ _; exact ⟨_, rfl⟩
  | cons o ops ih =>
    intro s log hs hb hf
    have e : total (o :: ops) sr = o.samples / sr + total ops sr := by
      simp only [total, List.map_cons, List.sum_cons]; push_cast; ring
    have h0 : 0 ≤ total ops sr := by unfold total; positivity
    have h1 : (0 : ℝ) ≤ o.samples / sr := by positivity
    obtain ⟨v, gs, hi⟩ := instantiateVoices_total (before := s.time + o.samples / s.sr) hc (by rw [hs]; linarith) hb (by rw [hs]; linarith)
    obtain ⟨s1, fs, e1⟩ := step_of (H := H) (ease := ease) (setRate := setRate) hi
    obtain ⟨a1, a2, a3, a4, a5⟩ := step_ok e1
    have b := (between_step hb (by rw [hs]; linarith) a1).1
    rw [← a2] at b
    obtain ⟨r, e2⟩ := ih (a3.trans hs) b (by rw [a2, hs]; linarith)
    unfold St.run
    rw [e1]
    simp only
    rw [e2]
    exact ⟨_, rfl⟩

end

variable (X : Node ℝ 0 n) (H : Heap ℝ X.σ) (ease : Fade → ℝ → ℝ) (setRate : ℝ → X.σ → X.σ) (c : Cfg R X.σ)

/-- **C80.** If the generator returns fades of at least zero and grains longer than their fades by some fixed amount, then every run of calls comes to its
end without panic: spawning takes at most as many rounds per voice as such grains fit into the time rendered. -/
theorem C80_total (δ : ℝ) (hc : Steady c δ) (sr : ℝ) (hsr : 0 < sr) (seed ids : Nat) (ops : List (Op n)) (fuel : Nat) (hf : total ops sr ≤ fuel * δ) :
    ∃ r, St.run X H ease setRate c fuel ops (St.new c sr seed ids) = .ok r :=
  run_total hsr hc ops (log := []) rfl (new_between sr seed ids) (by show (0 : ℝ) + _ ≤ _; linarith)

/-- **C80.** The bound on rounds does not matter: a run that ends with one bound ends the same way with any larger one. -/
theorem C80_rounds (fuel fuel' : Nat) (hf : fuel ≤ fuel') (ops : List (Op n)) : ∀ (s : St R X.σ) (r : St R X.σ × List (Grain X.σ) × List (Frame ℝ n)),
    St.run X H ease setRate c fuel ops s = .ok r → St.run X H ease setRate c fuel' ops s = .ok r := by
  induction ops with
  | nil => intro s r h; exact h
  | cons o ops ih =>
    intro s r h
    obtain ⟨s1, gs, f1, gs', f2, e1, e2, h3, h4⟩ := run_cons (s' := r.1) (log := r.2.1) (fs := r.2.2) h
    unfold St.run
    rw [step_more hf e1]
    simp only
    rw [ih _ _ e2]
    simp only
    rw [← h3, ← h4]

/-- **C80.** A first grain with a negative fade, or not longer than its fade, panics. -/
theorem C80_panic (sr : ℝ) (hsr : 0 < sr) (seed ids fuel : Nat) (hn : 0 < c.voices) (o : Op n) (ho : 0 < o.samples) (ops : List (Op n))
    (hbad : (request c 0 0 (c.seed seed)).1.2.1 < 0 ∨ (request c 0 0 (c.seed seed)).1.1 ≤ (request c 0 0 (c.seed seed)).1.2.1) :
    St.run X H ease setRate c (fuel + 1) (o :: ops) (St.new c sr seed ids) = .error .panic := by
  have hi : instantiate c 0 ⟨fun _ => 0, c.seed seed⟩ = .error .panic := by
    unfold instantiate
    simp only
    rcases hbad with hb | hb
    · rw [if_pos (not_le.2 hb)]
    · split
      · rfl
      · rw [if_pos (not_lt.2 hb)]
  obtain ⟨k, hk⟩ : ∃ k, c.voices = k + 1 := ⟨c.voices - 1, by omega⟩
  have hr : List.range c.voices = 0 :: (List.range k).map Nat.succ := by rw [hk, List.range_succ_eq_map]
  have ho' : (0 : ℝ) < o.samples := by exact_mod_cast ho
  have hv : voiceLoop c (0 + o.samples / sr) 0 (fuel + 1) ⟨fun _ => 0, c.seed seed⟩ = .error .panic := by
    unfold voiceLoop
    rw [if_pos (by show (0 : ℝ) < _; positivity), hi]
  have hv2 : instantiateVoices c (fuel + 1) (0 + o.samples / sr) ⟨fun _ => 0, c.seed seed⟩ = .error .panic := by
    unfold instantiateVoices
    rw [hr]
    unfold voicesLoop
    rw [hv]
  exact run_error hv2

/-- A generator whose grains get shorter and shorter: each is half as long as the time left until 1 second. -/
def zeno (u : U) (r : R) : Cfg R U :=
  { voices := 1, beatLength := 1, beatsPerCycle := 1, inner := 0, outer := 0, jitter := 0, texture := id
    generator := fun t _ _ _ _ _ => (if t < 1 then (1 - t) / 2 else 1, 0, u)
    seed := fun _ => r, f32 := fun r => (0, r), u64 := fun r => (0, r), ping := fun _ u => u }

theorem zeno_loop (u : U) (r : R) (b : ℝ) (hb : 1 ≤ b) : ∀ (fuel : Nat) (s : Voices R), s.next 0 < 1 → voiceLoop (zeno u r) b 0 fuel s = .error .endless := by
  intro fuel
  induction fuel with
  | zero => intro s h; unfold voiceLoop; rw [if_pos (by linarith)]
  | succ fuel ih =>
    intro s h
    unfold voiceLoop
    rw [if_pos (by linarith)]
    have e : ∃ s' g, instantiate (zeno u r) 0 s = .ok (s', g) ∧ s'.next 0 < 1 := by
      have hl : (request (zeno u r) 0 (s.next 0) s.rnd).1.1 = (1 - s.next 0) / 2 := by
        show (if s.next 0 < 1 then (1 - s.next 0) / 2 else 1) = _
        rw [if_pos h]
      have he : (request (zeno u r) 0 (s.next 0) s.rnd).1.2.1 = 0 := rfl
      unfold instantiate
      simp only
      rw [hl, he, if_neg (by simp), if_neg (by rw [not_not]; linarith), if_neg (by simp)]
      refine ⟨_, _, rfl, ?_⟩
      simp only [Function.update_self]
      linarith
    obtain ⟨s', g, e1, e2⟩ := e
    rw [e1]
    simp only
    rw [ih s' e2]

/-- **C80.** Without a bound below for the grains, spawning may go on forever though every single grain passes the assertions. (Over the reals. In floating
point, the times stop growing once a grain is short against the time that has passed; that loop does not end either.) -/
theorem C80_violation_endless (u : X.σ) (r : R) : (∀ t b v x y z, 0 ≤ ((zeno u r).generator t b v x y z).2.1 ∧
      ((zeno u r).generator t b v x y z).2.1 < ((zeno u r).generator t b v x y z).1) ∧
    ∀ (fuel seed ids : Nat) (ops : List (Op n)), St.run X H ease setRate (zeno u r) fuel (.tick :: ops) (St.new (zeno u r) 1 seed ids) = .error .endless := by
  refine ⟨fun t b v x y z => ⟨le_refl _, ?_⟩, fun fuel seed ids ops => ?_⟩
  · show (0 : ℝ) < if t < 1 then (1 - t) / 2 else 1
    split
    · linarith
    · exact one_pos
  · have hv : instantiateVoices (zeno u r) fuel (0 + ((1 : Nat) : ℝ) / 1) ⟨fun _ => 0, r⟩ = .error .endless := by
      unfold instantiateVoices
      show voicesLoop _ _ _ [0] _ = _
      unfold voicesLoop
      rw [zeno_loop u r _ (by norm_num) fuel _ one_pos]
    exact run_error hv

end Fundsp.Gran
