import Verif.Gran.Model
import Mathlib.Tactic.Linarith
import Mathlib.Tactic.Positivity
import Mathlib.Tactic.FieldSimp

/-! Spawning grains: lemmas. -/

noncomputable section
namespace Fundsp.Gran
open Fundsp.Seq
variable {R U : Type} {n : Nat}

/-- An unbroken chain of grains from `a` to `b`: each grain starts where the fade-out of the previous one starts. -/
def Chain : ℝ → List (Grain U) → ℝ → Prop
  | a, [], b => a = b
  | a, g :: gs, b => g.start = a ∧ 0 ≤ g.env ∧ g.env < g.len ∧ Chain (g.start + g.len - g.env) gs b

/-- The grains of one voice. -/
def ofVoice (v : Nat) (l : List (Grain U)) : List (Grain U) := l.filter (fun g => g.voice == v)

theorem ofVoice_append (v : Nat) (l m : List (Grain U)) : ofVoice v (l ++ m) = ofVoice v l ++ ofVoice v m := List.filter_append ..

theorem Chain.append {a b d : ℝ} {l m : List (Grain U)} (h : Chain a l b) (h' : Chain b m d) : Chain a (l ++ m) d := by
  induction l generalizing a with
  | nil => have : a = b := h
           subst this; exact h'
  | cons g l ih => exact ⟨h.1, h.2.1, h.2.2.1, ih h.2.2.2⟩

theorem Chain.le {a b : ℝ} {l : List (Grain U)} (h : Chain a l b) : a ≤ b := by
  induction l generalizing a with
  | nil => exact le_of_eq h
  | cons g l ih =>
    obtain ⟨h1, h2, h3, h4⟩ := h
    have := ih h4
    linarith

/-- The grain was made by the generator, from the texture at the place of its voice and start time, with the random generator in some state. -/
def Made (c : Cfg R U) (g : Grain U) : Prop :=
  ∃ r, g.len = (request c g.voice g.start r).1.1 ∧ g.env = (request c g.voice g.start r).1.2.1 ∧
    g.unit = c.ping (c.u64 (request c g.voice g.start r).2).1 (request c g.voice g.start r).1.2.2

/-- The state after the first grain: the grains so far are chains, one for each voice. -/
structure Inv (c : Cfg R U) (d : ℝ) (log : List (Grain U)) (s : Voices R) : Prop where
  dpos : 0 < d
  chain : ∀ v, v < c.voices → Chain (d * v / c.voices) (ofVoice v log) (s.next v)
  pos : ∀ v, v < c.voices → 0 < s.next v
  voice : ∀ g ∈ log, g.voice < c.voices
  made : ∀ g ∈ log, Made c g

/-- What an instantiation does, whatever the voice. -/
theorem instantiate_ok {c : Cfg R U} {v : Nat} {s s' : Voices R} {g : Grain U} (h : instantiate c v s = .ok (s', g)) :
    g.voice = v ∧ g.start = s.next v ∧ 0 ≤ g.env ∧ g.env < g.len ∧ s'.next v = g.start + g.len - g.env ∧ Made c g ∧ ¬ (s.next v = 0 ∧ v ≠ 0) ∧
      ∀ u, u ≠ v → s'.next u = if s.next v = 0 ∧ 1 ≤ u ∧ u < c.voices then (g.len - g.env) * u / c.voices else s.next u := by
  unfold instantiate at h
  simp only at h
  split at h
  · cases h
  split at h
  · cases h
  split at h
  · cases h
  rename_i h1 h2 h3
  have h := Except.ok.inj h
  obtain ⟨e1, e2⟩ := Prod.mk.inj h
  subst e1; subst e2
  refine ⟨rfl, rfl, not_not.1 h1, not_not.1 h2, Function.update_self .., ⟨s.rnd, rfl, rfl, rfl⟩, h3, fun u hu => ?_⟩
  simp only
  rw [Function.update_of_ne hu]
  by_cases ht : s.next v = 0
  · simp only [ht, if_true, true_and]
  · simp only [ht, if_false, false_and]

theorem inv_instantiate {c : Cfg R U} {d : ℝ} {log : List (Grain U)} {v : Nat} {s s' : Voices R} {g : Grain U} (hv : v < c.voices) (hs : Inv c d log s)
    (h : instantiate c v s = .ok (s', g)) : Inv c d (log ++ [g]) s' ∧ (∀ u, u ≠ v → s'.next u = s.next u) ∧ s.next v < s'.next v := by
  obtain ⟨h1, h2, h3, h4, h5, h6, h7, h8⟩ := instantiate_ok h
  have hp := hs.pos v hv
  have h8' : ∀ u, u ≠ v → s'.next u = s.next u := fun u hu => by rw [h8 u hu, if_neg (fun hh => absurd hh.1 hp.ne')]
  have hlt : s.next v < s'.next v := by rw [h5, h2]; linarith
  refine ⟨⟨hs.dpos, fun u hu => ?_, fun u hu => ?_, ?_, ?_⟩, h8', hlt⟩
  · rw [ofVoice_append]
    by_cases huv : u = v
    · subst huv
      have : ofVoice u [g] = [g] := by simp [ofVoice, h1]
      rw [this]
      exact (hs.chain u hu).append ⟨h2, h3, h4, h5.symm⟩
    · have : ofVoice u [g] = [] := by simp [ofVoice, h1]; exact fun h => huv h.symm
      rw [this, List.append_nil, h8' u huv]
      exact hs.chain u hu
  · by_cases huv : u = v
    · subst huv; linarith
    · rw [h8' u huv]; exact hs.pos u hu
  · intro x hx
    rcases List.mem_append.1 hx with hx | hx
    · exact hs.voice x hx
    · rw [List.mem_singleton.1 hx, h1]; exact hv
  · intro x hx
    rcases List.mem_append.1 hx with hx | hx
    · exact hs.made x hx
    · rw [List.mem_singleton.1 hx]; exact h6

/-- The loop over one voice, by its rounds. -/
theorem voiceLoop_cases {c : Cfg R U} {before : ℝ} {v : Nat} {fuel : Nat} {s s' : Voices R} {gs : List (Grain U)}
    (h : voiceLoop c before v fuel s = .ok (s', gs)) :
    (before ≤ s.next v ∧ s' = s ∧ gs = []) ∨
    ∃ f s1 g gs', fuel = f + 1 ∧ s.next v < before ∧ instantiate c v s = .ok (s1, g) ∧ voiceLoop c before v f s1 = .ok (s', gs') ∧ gs = g :: gs' := by
  cases fuel with
  | zero =>
    unfold voiceLoop at h
    split at h
    · cases h
    · rename_i hb
      have h := Prod.mk.inj (Except.ok.inj h)
      exact .inl ⟨not_lt.1 hb, h.1.symm, h.2.symm⟩
  | succ f =>
    unfold voiceLoop at h
    split at h
    · rename_i hb
      split at h
      · cases h
      · rename_i s1 g hi
        split at h
        · cases h
        · rename_i s2 gs' hl
          have h := Prod.mk.inj (Except.ok.inj h)
          exact .inr ⟨f, s1, g, gs', rfl, hb, hi, by rw [hl, h.1], h.2.symm⟩
    · rename_i hb
      have h := Prod.mk.inj (Except.ok.inj h)
      exact .inl ⟨not_lt.1 hb, h.1.symm, h.2.symm⟩

theorem inv_voiceLoop {c : Cfg R U} {d before : ℝ} {v : Nat} (hv : v < c.voices) : ∀ (fuel : Nat) {log : List (Grain U)} {s s' : Voices R} {gs : List (Grain U)},
    Inv c d log s → voiceLoop c before v fuel s = .ok (s', gs) →
    Inv c d (log ++ gs) s' ∧ (∀ u, u ≠ v → s'.next u = s.next u) ∧ s.next v ≤ s'.next v ∧ before ≤ s'.next v ∧
      ∀ g ∈ gs, g.voice = v ∧ s.next v ≤ g.start ∧ g.start < before := by
  intro fuel
  induction fuel with
  | zero =>
    intro log s s' gs hs h
    rcases voiceLoop_cases h with ⟨h1, h2, h3⟩ | ⟨f, s1, g, gs', e, _⟩
    · subst h2; subst h3
      rw [List.append_nil]
      exact ⟨hs, fun _ _ => rfl, le_refl _, h1, fun g hg => absurd hg (by simp)⟩
    · omega
  | succ fuel ih =>
    intro log s s' gs hs h
    rcases voiceLoop_cases h with ⟨h1, h2, h3⟩ | ⟨f, s1, g, gs', e, hb, hi, hl, rfl⟩
    · subst h2; subst h3
      rw [List.append_nil]
      exact ⟨hs, fun _ _ => rfl, le_refl _, h1, fun g hg => absurd hg (by simp)⟩
    · obtain rfl : fuel = f := by omega
      obtain ⟨a1, a2, a3⟩ := inv_instantiate hv hs hi
      obtain ⟨b1, b2, b3, b4, b5⟩ := ih a1 hl
      have hg := instantiate_ok hi
      refine ⟨by simpa using b1, fun u hu => by rw [b2 u hu, a2 u hu], by linarith, b4, fun x hx => ?_⟩
      rcases List.mem_cons.1 hx with rfl | hx
      · exact ⟨hg.1, by rw [hg.2.1], by rw [hg.2.1]; exact hb⟩
      · obtain ⟨q1, q2, q3⟩ := b5 x hx
        exact ⟨q1, by linarith, q3⟩

theorem inv_voicesLoop {c : Cfg R U} {d before : ℝ} {fuel : Nat} (vs : List Nat) (hvs : ∀ v ∈ vs, v < c.voices) :
    ∀ {log : List (Grain U)} {s s' : Voices R} {gs : List (Grain U)}, Inv c d log s → voicesLoop c before fuel vs s = .ok (s', gs) →
    Inv c d (log ++ gs) s' ∧ (∀ u, s.next u ≤ s'.next u) ∧ (∀ v ∈ vs, before ≤ s'.next v) ∧ ∀ g ∈ gs, s.next g.voice ≤ g.start ∧ g.start < before := by
  induction vs with
  | nil =>
    intro log s s' gs hs h
    have h := Prod.mk.inj (Except.ok.inj h)
    obtain ⟨rfl, rfl⟩ := h
    rw [List.append_nil]
    exact ⟨hs, fun _ => le_refl _, by simp, by simp⟩
  | cons v vs ih =>
    intro log s s' gs hs h
    unfold voicesLoop at h
    split at h
    · cases h
    · rename_i s1 gs1 h1
      split at h
      · cases h
      · rename_i s2 gs2 h2
        have h := Prod.mk.inj (Except.ok.inj h)
        obtain ⟨rfl, rfl⟩ := h
        obtain ⟨a1, a2, a3, a4, a5⟩ := inv_voiceLoop (hvs v (List.mem_cons_self ..)) fuel hs h1
        obtain ⟨b1, b2, b3, b4⟩ := ih (fun u hu => hvs u (List.mem_cons_of_mem _ hu)) a1 h2
        have ale : ∀ u, s.next u ≤ s1.next u := fun u => by
          by_cases hu : u = v
          · subst hu; exact a3
          · rw [a2 u hu]
        refine ⟨by rw [← List.append_assoc]; exact b1, fun u => (ale u).trans (b2 u), fun u hu => ?_, fun g hg => ?_⟩
        · rcases List.mem_cons.1 hu with rfl | hu
          · exact a4.trans (b2 u)
          · exact b3 u hu
        · rcases List.mem_append.1 hg with hg | hg
          · obtain ⟨q1, q2, q3⟩ := a5 g hg
            rw [q1]; exact ⟨q2, q3⟩
          · exact ⟨(ale _).trans (b4 g hg).1, (b4 g hg).2⟩

theorem voicesLoop_idle {c : Cfg R U} {before : ℝ} {fuel : Nat} (vs : List Nat) (s : Voices R) (h : ∀ v ∈ vs, before ≤ s.next v) :
    voicesLoop c before fuel vs s = .ok (s, []) := by
  induction vs with
  | nil => rfl
  | cons v vs ih =>
    have hv : ¬ s.next v < before := not_lt.2 (h v (List.mem_cons_self ..))
    have e : voiceLoop c before v fuel s = .ok (s, []) := by
      cases fuel <;> (unfold voiceLoop; rw [if_neg hv])
    unfold voicesLoop
    rw [e]
    simp only
    rw [ih (fun u hu => h u (List.mem_cons_of_mem _ hu))]
    rfl

/-- The first grain. -/
theorem inv_first {c : Cfg R U} {s s' : Voices R} {g : Grain U} (hn : 0 < c.voices) (h0 : s.next 0 = 0) (h : instantiate c 0 s = .ok (s', g)) :
    Inv c (g.len - g.env) [g] s' ∧ g.start = 0 ∧ g.voice = 0 := by
  obtain ⟨h1, h2, h3, h4, h5, h6, h7, h8⟩ := instantiate_ok h
  rw [h0] at h2
  have hc : (0 : ℝ) < c.voices := by exact_mod_cast hn
  have hd : 0 < g.len - g.env := by linarith
  refine ⟨⟨hd, fun v hv => ?_, fun v hv => ?_, ?_, ?_⟩, h2, h1⟩
  · by_cases hv0 : v = 0
    · subst hv0
      have : ofVoice 0 [g] = [g] := by simp [ofVoice, h1]
      rw [this]
      refine ⟨by simp [h2], h3, h4, h5.symm⟩
    · have : ofVoice v [g] = [] := by simp [ofVoice, h1]; exact fun h => hv0 h.symm
      rw [this, h8 v hv0, if_pos ⟨h0, by omega, hv⟩]
      rfl
  · by_cases hv0 : v = 0
    · subst hv0; rw [h5, h2]; linarith
    · rw [h8 v hv0, if_pos ⟨h0, by omega, hv⟩]
      have : (0 : ℝ) < v := by exact_mod_cast Nat.pos_of_ne_zero hv0
      positivity
  · intro x hx; rw [List.mem_singleton.1 hx, h1]; exact hn
  · intro x hx; rw [List.mem_singleton.1 hx]; exact h6

/-- State between calls: nothing has been rendered, or the grains so far are chains that reach up to the time rendered. -/
def Between (c : Cfg R U) (time : ℝ) (log : List (Grain U)) (s : Voices R) : Prop :=
  (time = 0 ∧ log = [] ∧ ∀ v, v < c.voices → s.next v = 0) ∨ (c.voices = 0 ∧ log = []) ∨
  ∃ g0 l, log = g0 :: l ∧ g0.voice = 0 ∧ g0.start = 0 ∧ Inv c (g0.len - g0.env) log s ∧ (∀ v, v < c.voices → time ≤ s.next v) ∧ ∀ g ∈ log, 0 ≤ g.start ∧ g.start < time

theorem between_step {c : Cfg R U} {time before : ℝ} {fuel : Nat} {log gs : List (Grain U)} {s s' : Voices R} (hs : Between c time log s) (hb : time ≤ before)
    (h : instantiateVoices c fuel before s = .ok (s', gs)) : Between c before (log ++ gs) s' ∧ ∀ g ∈ gs, time ≤ g.start ∧ g.start < before := by
  unfold instantiateVoices at h
  rcases hs with ⟨h1, h2, h3⟩ | ⟨h1, h2⟩ | ⟨g0, l, h1, h2, h3, h4, h5, h6⟩
  · subst h2
    rw [h1] at hb
    rcases Nat.eq_zero_or_pos c.voices with hn | hn
    · rw [hn] at h
      have h := Prod.mk.inj (Except.ok.inj h)
      obtain ⟨rfl, rfl⟩ := h
      exact ⟨.inr (.inl ⟨hn, rfl⟩), by simp⟩
    rcases hb.lt_or_eq with hb | hb
    · obtain ⟨k, hk⟩ : ∃ k, c.voices = k + 1 := ⟨c.voices - 1, by omega⟩
      have hr : List.range c.voices = 0 :: (List.range k).map Nat.succ := by rw [hk, List.range_succ_eq_map]
      have hvs : ∀ v ∈ (List.range k).map Nat.succ, v < c.voices := by
        intro v hv
        obtain ⟨u, hu, rfl⟩ := List.mem_map.1 hv
        have := List.mem_range.1 hu
        omega
      rw [hr] at h
      unfold voicesLoop at h
      split at h
      · cases h
      · rename_i s1 gs1 e1
        split at h
        · cases h
        · rename_i s2 gs2 e2
          have h := Prod.mk.inj (Except.ok.inj h)
          obtain ⟨rfl, rfl⟩ := h
          rcases voiceLoop_cases e1 with ⟨a1, _, _⟩ | ⟨f, s0, g, gs', _, _, hi, hl, rfl⟩
          · rw [h3 0 hn] at a1; linarith
          · obtain ⟨a1, a2, a3⟩ := inv_first hn (h3 0 hn) hi
            obtain ⟨b1, b2, b3, b4, b5⟩ := inv_voiceLoop hn f a1 hl
            obtain ⟨d1, d2, d3, d4⟩ := inv_voicesLoop _ hvs b1 e2
            have hst : ∀ x ∈ g :: gs' ++ gs2, 0 ≤ x.start ∧ x.start < before := by
              intro x hx
              rw [List.cons_append] at hx
              rcases List.mem_cons.1 hx with rfl | hx
              · rw [a2]; exact ⟨le_refl _, hb⟩
              rcases List.mem_append.1 hx with hx | hx
              · obtain ⟨q1, q2, q3⟩ := b5 x hx
                exact ⟨(a1.pos 0 hn).le.trans q2, q3⟩
              · obtain ⟨q2, q3⟩ := d4 x hx
                exact ⟨(b1.pos _ (d1.voice x (by simp [hx]))).le.trans q2, q3⟩
            refine ⟨.inr (.inr ⟨g, gs' ++ gs2, rfl, a3, a2, by simpa using d1, fun v hv => ?_, hst⟩), by rw [h1]; exact hst⟩
            by_cases hv0 : v = 0
            · subst hv0; exact b4.trans (d2 0)
            · exact d3 v (List.mem_map.2 ⟨v - 1, List.mem_range.2 (by omega), by omega⟩)
    · rw [voicesLoop_idle _ _ (fun v hv => by rw [h3 v (List.mem_range.1 hv), hb])] at h
      have h := Prod.mk.inj (Except.ok.inj h)
      obtain ⟨rfl, rfl⟩ := h
      exact ⟨.inl ⟨hb.symm, rfl, h3⟩, by simp⟩
  · rw [h1] at h
    have h := Prod.mk.inj (Except.ok.inj h)
    obtain ⟨rfl, rfl⟩ := h
    exact ⟨.inr (.inl ⟨h1, by rw [h2]; rfl⟩), by simp⟩
  · obtain ⟨d1, d2, d3, d4⟩ := inv_voicesLoop _ (fun v hv => List.mem_range.1 hv) h4 h
    have hst : ∀ x ∈ gs, time ≤ x.start ∧ x.start < before := fun x hx =>
      ⟨(h5 _ (d1.voice x (by simp [hx]))).trans (d4 x hx).1, (d4 x hx).2⟩
    have ht0 : 0 ≤ time := by have := h6 g0 (by rw [h1]; simp); linarith
    refine ⟨.inr (.inr ⟨g0, l ++ gs, by rw [h1]; rfl, h2, h3, d1, fun v hv => d3 v (List.mem_range.2 hv), fun x hx => ?_⟩), hst⟩
    rcases List.mem_append.1 hx with hx | hx
    · have := h6 x hx; exact ⟨this.1, this.2.trans_le hb⟩
    · have := hst x hx; exact ⟨ht0.trans this.1, this.2⟩

end Fundsp.Gran
