import Verif.Gran.Total

/-!
# C80: blocks and ticks, reset
-/

noncomputable section
namespace Fundsp.Gran
open Fundsp.Seq
variable {R U : Type} {n : Nat}

/-! ## One voice -/

theorem voiceLoop_join {c : Cfg R U} {b1 b2 : ℝ} {v : Nat} (hb : b1 ≤ b2) {f2 : Nat} : ∀ {f1 : Nat} {s s1 s2 : Voices R} {l1 l2 : List (Grain U)},
    voiceLoop c b1 v f1 s = .ok (s1, l1) → voiceLoop c b2 v f2 s1 = .ok (s2, l2) → voiceLoop c b2 v (f1 + f2) s = .ok (s2, l1 ++ l2) := by
  intro f1
  induction f1 with
  | zero =>
    intro s s1 s2 l1 l2 h1 h2
    rcases voiceLoop_cases h1 with ⟨_, rfl, rfl⟩ | ⟨f, _, _, _, e, _⟩
    · rw [Nat.zero_add]; exact h2
    · omega
  | succ f1 ih =>
    intro s s1 s2 l1 l2 h1 h2
    rcases voiceLoop_cases h1 with ⟨_, rfl, rfl⟩ | ⟨f, s0, g, gs', e, hlt, hi, hl, rfl⟩
    · exact voiceLoop_more (by omega) h2
    · obtain rfl : f1 = f := by omega
      have := ih hl h2
      rw [show f1 + 1 + f2 = (f1 + f2) + 1 by omega]
      unfold voiceLoop
      rw [if_pos (hlt.trans_le hb), hi]
      simp only
      rw [this]
      rfl

theorem instantiateVoices_one {c : Cfg R U} (hc : c.voices = 1) {fuel : Nat} {b : ℝ} {s s' : Voices R} {gs : List (Grain U)}
    (h : instantiateVoices c fuel b s = .ok (s', gs)) : voiceLoop c b 0 fuel s = .ok (s', gs) := by
  unfold instantiateVoices at h
  rw [hc, show List.range 1 = [0] from rfl] at h
  unfold voicesLoop at h
  split at h
  · cases h
  · rename_i s1 gs1 h1
    have e : voicesLoop c b fuel [] s1 = .ok (s1, []) := rfl
    rw [e] at h
    simp only [List.append_nil] at h
    rw [h1, ← h]

section
variable {X : Node ℝ 0 n} {H : Heap ℝ X.σ} {ease : Fade → ℝ → ℝ} {setRate : ℝ → X.σ → X.σ} {c : Cfg R X.σ} {fuel : Nat}

theorem run_one (hc : c.voices = 1) {sr : ℝ} (hsr : 0 < sr) (ops : List (Op n)) : ops ≠ [] → ∀ {s s' : St R X.σ} {log : List (Grain X.σ)} {fs : List (Frame ℝ n)},
    s.sr = sr → St.run X H ease setRate c fuel ops s = .ok (s', log, fs) → ∃ f, voiceLoop c (s.time + total ops sr) 0 f s.voices = .ok (s'.voices, log) := by
  induction ops with
  | nil => intro h; exact absurd rfl h
  | cons o ops ih =>
    intro _ s s' log fs hs h
    obtain ⟨s1, gs1, f1, gs2, f2, e1, e2, rfl, rfl⟩ := run_cons h
    obtain ⟨a1, a2, a3, a4, a5⟩ := step_ok e1
    have a := instantiateVoices_one hc a1
    have e : total (o :: ops) sr = o.samples / sr + total ops sr := by
      simp only [total, List.map_cons, List.sum_cons]; push_cast; ring
    by_cases hn : ops = []
    · subst hn
      obtain ⟨q1, q2⟩ := Prod.mk.inj (Except.ok.inj e2)
      obtain ⟨q2, q3⟩ := Prod.mk.inj q2
      subst q1; subst q2
      refine ⟨fuel, ?_⟩
      rw [List.append_nil, ← a, hs, e]
      simp [total]
    · obtain ⟨f, hf⟩ := ih hn (a3.trans hs) e2
      refine ⟨fuel + f, ?_⟩
      have h0 : 0 ≤ total ops sr := by unfold total; positivity
      refine voiceLoop_join ?_ a ?_
      · rw [hs, e]; linarith
      · rw [e, ← hf, a2, hs, add_assoc]

end

/-! ## No jitter -/

/-- Grains that differ at most in the random phase of their unit. -/
def Alike (c : Cfg R U) (g g' : Grain U) : Prop :=
  g.voice = g'.voice ∧ g.start = g'.start ∧ g.len = g'.len ∧ g.env = g'.env ∧ ∃ u h h', g.unit = c.ping h u ∧ g'.unit = c.ping h' u

theorem request_steady {c : Cfg R U} (hj : c.jitter = 0) (v : Nat) (t : ℝ) (r r' : R) : (request c v t r).1 = (request c v t r').1 := by
  have : (helix c v t r).1 = (helix c v t r').1 := by
    unfold helix
    simp only [hj, mul_zero, add_zero]
  unfold request
  simp only
  rw [this]

theorem made_alike {c : Cfg R U} (hj : c.jitter = 0) {g g' : Grain U} (h : Made c g) (h' : Made c g') (hv : g.voice = g'.voice) (hs : g.start = g'.start) :
    Alike c g g' := by
  obtain ⟨r, a1, a2, a3⟩ := h
  obtain ⟨r', b1, b2, b3⟩ := h'
  have e := request_steady hj g.voice g.start r r'
  rw [← hv, ← hs] at b1 b2 b3
  refine ⟨hv, hs, by rw [a1, b1, e], by rw [a2, b2, e], (request c g.voice g.start r).1.2.2, _, (c.u64 (request c g.voice g.start r').2).1, a3, ?_⟩
  rw [b3, e]

theorem chain_alike {c : Cfg R U} (hj : c.jitter = 0) {T : ℝ} {v : Nat} : ∀ {l l' : List (Grain U)} {a b b' : ℝ}, Chain a l b → Chain a l' b' → T ≤ b → T ≤ b' →
    (∀ g ∈ l, g.voice = v ∧ g.start < T ∧ Made c g) → (∀ g ∈ l', g.voice = v ∧ g.start < T ∧ Made c g) → List.Forall₂ (Alike c) l l' := by
  intro l
  induction l with
  | nil =>
    intro l' a b b' h h' hb _ _ hl'
    cases l' with
    | nil => exact .nil
    | cons g l' =>
      have h1 : a = b := h
      have := (hl' g (List.mem_cons_self ..)).2.1
      have h2 := h'.1
      linarith
  | cons g l ih =>
    intro l' a b b' h h' hb hb' hl hl'
    cases l' with
    | nil =>
      have h1 : a = b' := h'
      have := (hl g (List.mem_cons_self ..)).2.1
      have h2 := h.1
      linarith
    | cons g' l' =>
      have q := hl g (List.mem_cons_self ..)
      have q' := hl' g' (List.mem_cons_self ..)
      have hal := made_alike hj q.2.2 q'.2.2 (q.1.trans q'.1.symm) (h.1.trans h'.1.symm)
      obtain ⟨-, e1, e2, e3, -⟩ := id hal
      refine .cons hal (ih h.2.2.2 ?_ hb hb' (fun x hx => hl x (List.mem_cons_of_mem _ hx)) (fun x hx => hl' x (List.mem_cons_of_mem _ hx)))
      rw [e1, e2, e3]
      exact h'.2.2.2

theorem mem_ofVoice {v : Nat} {l : List (Grain U)} {g : Grain U} (h : g ∈ ofVoice v l) : g.voice = v ∧ g ∈ l := by
  obtain ⟨h1, h2⟩ := List.mem_filter.1 h
  exact ⟨by simpa using h2, h1⟩

variable (X : Node ℝ 0 n) (H : Heap ℝ X.σ) (ease : Fade → ℝ → ℝ) (setRate : ℝ → X.σ → X.σ) (c : Cfg R X.σ)

/-- **C80.** With one voice, blocks of any sizes and ticks spawn the same grains, in the same order, down to their random phases. -/
theorem C80_block_partial (hc : c.voices = 1) (fuel fuel' : Nat) (sr : ℝ) (hsr : 0 < sr) (seed ids ids' : Nat) (ops ops' : List (Op n))
    (hlen : (ops.map Op.samples).sum = (ops'.map Op.samples).sum) (s s' : St R X.σ) (log log' : List (Grain X.σ)) (fs fs' : List (Frame ℝ n))
    (h : St.run X H ease setRate c fuel ops (St.new c sr seed ids) = .ok (s, log, fs))
    (h' : St.run X H ease setRate c fuel' ops' (St.new c sr seed ids') = .ok (s', log', fs')) : log = log' := by
  have key : ∀ (fuel ids : Nat) (ops : List (Op n)) (s : St R X.σ) (log : List (Grain X.σ)) (fs : List (Frame ℝ n)),
      St.run X H ease setRate c fuel ops (St.new c sr seed ids) = .ok (s, log, fs) →
      ∃ f v, voiceLoop c (total ops sr) 0 f ⟨fun _ => 0, c.seed seed⟩ = .ok (v, log) := by
    intro fuel ids ops s log fs h
    by_cases hn : ops = []
    · subst hn
      obtain ⟨q1, q2⟩ := Prod.mk.inj (Except.ok.inj h)
      obtain ⟨q2, q3⟩ := Prod.mk.inj q2
      refine ⟨0, ⟨fun _ => 0, c.seed seed⟩, ?_⟩
      unfold voiceLoop
      rw [if_neg (by simp [total]), q2]
    · obtain ⟨f, hf⟩ := run_one hc hsr ops hn rfl h
      refine ⟨f, s.voices, ?_⟩
      rw [← hf]
      show _ = voiceLoop c (0 + total ops sr) 0 f ⟨fun _ => 0, c.seed seed⟩
      rw [zero_add]
  obtain ⟨f, v, hf⟩ := key fuel ids ops s log fs h
  obtain ⟨f', v', hf'⟩ := key fuel' ids' ops' s' log' fs' h'
  have e : total ops sr = total ops' sr := by unfold total; rw [hlen]
  rw [e] at hf
  have h1 := voiceLoop_more (Nat.le_max_left f f') hf
  have h2 := voiceLoop_more (Nat.le_max_right f f') hf'
  rw [h1] at h2
  exact (Prod.mk.inj (Except.ok.inj h2)).2

/-- **C80.** Without jitter, whatever the number of voices, blocks of any sizes and ticks spawn the same grains for every voice, up to the random phases of
their units. What is missing is jitter and random phases with more than one voice, see `C80_violation_block`. -/
theorem C80_block_steady_partial (hj : c.jitter = 0) (fuel fuel' : Nat) (sr : ℝ) (hsr : 0 < sr) (seed seed' ids ids' : Nat) (ops ops' : List (Op n))
    (hlen : (ops.map Op.samples).sum = (ops'.map Op.samples).sum) (s s' : St R X.σ) (log log' : List (Grain X.σ)) (fs fs' : List (Frame ℝ n))
    (h : St.run X H ease setRate c fuel ops (St.new c sr seed ids) = .ok (s, log, fs))
    (h' : St.run X H ease setRate c fuel' ops' (St.new c sr seed' ids') = .ok (s', log', fs')) (v : Nat) (hv : v < c.voices) :
    List.Forall₂ (Alike c) (ofVoice v log) (ofVoice v log') := by
  obtain ⟨d, d1, d2, d3⟩ := C80_chain X H ease setRate c fuel sr hsr seed ids ops s log fs h
  obtain ⟨d', d1', d2', d3'⟩ := C80_chain X H ease setRate c fuel' sr hsr seed' ids' ops' s' log' fs' h'
  have e : total ops sr = total ops' sr := by unfold total; rw [hlen]
  have go : ∀ u, u < c.voices → d * u = d' * u → List.Forall₂ (Alike c) (ofVoice u log) (ofVoice u log') := by
    intro u hu hd
    obtain ⟨b, hb, hch⟩ := d3 u hu
    obtain ⟨b', hb', hch'⟩ := d3' u hu
    rw [← hd] at hch'
    refine chain_alike hj hch hch' (T := total ops sr) hb (e ▸ hb') (v := u) (fun g hg => ?_) (fun g hg => ?_)
    · obtain ⟨q1, q2⟩ := mem_ofVoice hg
      have := d2 g q2
      exact ⟨q1, this.2.2.1, this.2.2.2⟩
    · obtain ⟨q1, q2⟩ := mem_ofVoice hg
      have := d2' g q2
      rw [e]
      exact ⟨q1, this.2.2.1, this.2.2.2⟩
  -- the first grain is the same
  have hd : log ≠ [] → log' ≠ [] → d = d' := by
    intro hl hl'
    obtain ⟨bt, ht, -⟩ := run_between hsr ops (log := []) rfl (new_between sr seed ids) h
    obtain ⟨bt', ht', -⟩ := run_between hsr ops' (log := []) rfl (new_between sr seed' ids') h'
    rw [List.nil_append] at bt bt'
    rcases bt with ⟨_, h2, _⟩ | ⟨_, h2⟩ | ⟨g0, l, h1, h2, h3, h4, -, -⟩
    · exact absurd h2 hl
    · exact absurd h2 hl
    rcases bt' with ⟨_, h2', _⟩ | ⟨_, h2'⟩ | ⟨g0', l', h1', h2', h3', h4', -, -⟩
    · exact absurd h2' hl'
    · exact absurd h2' hl'
    have := made_alike hj (h4.made g0 (by rw [h1]; simp)) (h4'.made g0' (by rw [h1']; simp)) (h2.trans h2'.symm) (h3.trans h3'.symm)
    rw [d1 g0 (by rw [h1]; simp), d1' g0' (by rw [h1']; simp), this.2.2.1, this.2.2.2.1]
  have h0 := go 0 (by omega) (by simp)
  by_cases hl : log = []
  · by_cases hl' : log' = []
    · rw [hl, hl']; exact .nil
    · exfalso
      obtain ⟨bt', ht', -⟩ := run_between hsr ops' (log := []) rfl (new_between sr seed' ids') h'
      rw [List.nil_append] at bt'
      rcases bt' with ⟨_, h2', _⟩ | ⟨_, h2'⟩ | ⟨g0', l', h1', h2', -⟩
      · exact hl' h2'
      · exact hl' h2'
      · rw [hl, h1'] at h0
        have e2 : ofVoice 0 (g0' :: l') = g0' :: ofVoice 0 l' := by simp [ofVoice, h2']
        rw [e2] at h0
        cases h0
  · by_cases hl' : log' = []
    · exfalso
      obtain ⟨bt, ht, -⟩ := run_between hsr ops (log := []) rfl (new_between sr seed ids) h
      rw [List.nil_append] at bt
      rcases bt with ⟨_, h2', _⟩ | ⟨_, h2'⟩ | ⟨g0', l', h1', h2', -⟩
      · exact hl h2'
      · exact hl h2'
      · rw [hl', h1'] at h0
        have e2 : ofVoice 0 (g0' :: l') = g0' :: ofVoice 0 l' := by simp [ofVoice, h2']
        rw [e2] at h0
        cases h0
    · exact go v hv (by rw [hd hl hl'])

/-! ## Two voices -/

/-- Two voices, grains of 2 seconds, units that keep the hash they get; the random number generator counts. -/
def duo : Cfg Nat Nat :=
  { voices := 2, beatLength := 1, beatsPerCycle := 1, inner := 0, outer := 0, jitter := 0, texture := id
    generator := fun _ _ _ _ _ _ => (2, 0, 0)
    seed := id, f32 := fun r => (0, r), u64 := fun r => (r, r + 1), ping := fun h _ => h }

/-- State of `duo`. -/
def duoSt (a b : ℝ) (r : Nat) : Voices Nat := ⟨fun i => if i = 0 then a else if i = 1 then b else 0, r⟩

theorem duo_first (r : Nat) : instantiate duo 0 (duoSt 0 0 r) = .ok (duoSt 2 1 (r + 1), ⟨0, 0, 2, 0, r⟩) := by
  unfold instantiate
  have e : (request duo 0 ((duoSt 0 0 r).next 0) (duoSt 0 0 r).rnd) = ((2, 0, 0), r) := rfl
  simp only
  rw [e]
  have hn : (duoSt 0 0 r).next 0 = 0 := rfl
  rw [if_neg (by simp), if_neg (by norm_num), if_neg (by simp), hn, if_pos rfl]
  congr 2
  unfold duoSt
  congr 1
  funext i
  by_cases h0 : i = 0
  · subst h0; simp
  · rw [Function.update_of_ne h0, if_neg h0]
    by_cases h1 : i = 1
    · subst h1; norm_num [duo]
    · rw [if_neg (by rintro ⟨a, b⟩; change i < 2 at b; omega), if_neg h1]; simp [h0, h1]

theorem duo_zero (a b : ℝ) (r : Nat) (ha : a ≠ 0) : instantiate duo 0 (duoSt a b r) = .ok (duoSt (a + 2) b (r + 1), ⟨0, a, 2, 0, r⟩) := by
  unfold instantiate
  have e : (request duo 0 ((duoSt a b r).next 0) (duoSt a b r).rnd) = ((2, 0, 0), r) := rfl
  simp only
  rw [e]
  have hn : (duoSt a b r).next 0 = a := rfl
  rw [if_neg (by simp), if_neg (by norm_num), if_neg (by simp), hn, if_neg ha]
  congr 2
  unfold duoSt
  congr 1
  funext i
  by_cases h0 : i = 0
  · subst h0; simp
  · rw [Function.update_of_ne h0, if_neg h0]; simp [h0]

theorem duo_one (a b : ℝ) (r : Nat) (hb : b ≠ 0) : instantiate duo 1 (duoSt a b r) = .ok (duoSt a (b + 2) (r + 1), ⟨1, b, 2, 0, r⟩) := by
  unfold instantiate
  have e : (request duo 1 ((duoSt a b r).next 1) (duoSt a b r).rnd) = ((2, 0, 0), r) := rfl
  simp only
  rw [e]
  have hn : (duoSt a b r).next 1 = b := rfl
  rw [if_neg (by simp), if_neg (by norm_num), hn, if_neg (by simp [hb]), if_neg hb]
  congr 2
  unfold duoSt
  congr 1
  funext i
  by_cases h1 : i = 1
  · subst h1; simp
  · rw [Function.update_of_ne h1]; simp [h1]

theorem duo_loop0 (a b t : ℝ) (r f : Nat) (h : t ≤ a) : voiceLoop duo t 0 f (duoSt a b r) = .ok (duoSt a b r, []) := by
  have : ¬ (duoSt a b r).next 0 < t := not_lt.2 h
  cases f <;> (unfold voiceLoop; rw [if_neg this])

theorem duo_loop1 (a b t : ℝ) (r f : Nat) (h : t ≤ b) : voiceLoop duo t 1 f (duoSt a b r) = .ok (duoSt a b r, []) := by
  have : ¬ (duoSt a b r).next 1 < t := not_lt.2 h
  cases f <;> (unfold voiceLoop; rw [if_neg this])

theorem duo_next0 (a b t : ℝ) (r f : Nat) {s : Voices Nat} {g : Grain Nat} {s' : Voices Nat} {gs : List (Grain Nat)} (h : a < t)
    (hi : instantiate duo 0 (duoSt a b r) = .ok (s, g)) (hl : voiceLoop duo t 0 f s = .ok (s', gs)) :
    voiceLoop duo t 0 (f + 1) (duoSt a b r) = .ok (s', g :: gs) := by
  unfold voiceLoop
  rw [if_pos (show (duoSt a b r).next 0 < t from h), hi]
  simp only
  rw [hl]

theorem duo_next1 (a b t : ℝ) (r f : Nat) {s : Voices Nat} {g : Grain Nat} {s' : Voices Nat} {gs : List (Grain Nat)} (h : b < t)
    (hi : instantiate duo 1 (duoSt a b r) = .ok (s, g)) (hl : voiceLoop duo t 1 f s = .ok (s', gs)) :
    voiceLoop duo t 1 (f + 1) (duoSt a b r) = .ok (s', g :: gs) := by
  unfold voiceLoop
  rw [if_pos (show (duoSt a b r).next 1 < t from h), hi]
  simp only
  rw [hl]

theorem duo_all {t : ℝ} {f : Nat} {s s1 s2 : Voices Nat} {l1 l2 : List (Grain Nat)} (h1 : voiceLoop duo t 0 f s = .ok (s1, l1))
    (h2 : voiceLoop duo t 1 f s1 = .ok (s2, l2)) : instantiateVoices duo f t s = .ok (s2, l1 ++ l2) := by
  unfold instantiateVoices
  show voicesLoop duo t f [0, 1] s = _
  unfold voicesLoop
  rw [h1]
  simp only
  unfold voicesLoop
  rw [h2]
  simp only
  unfold voicesLoop
  simp

theorem duo_start (r : Nat) : (⟨fun _ => 0, r⟩ : Voices Nat) = duoSt 0 0 r := by
  unfold duoSt; congr 1; funext i; simp

/-- The grains of the first three seconds, rendered in one block: the random generator serves the first voice first. -/
theorem duo_block (f : Nat) : instantiateVoices duo (f + 2) 3 (duoSt 0 0 0) = .ok (duoSt 4 3 3, [⟨0, 0, 2, 0, 0⟩, ⟨0, 2, 2, 0, 1⟩, ⟨1, 1, 2, 0, 2⟩]) := by
  have a := duo_next0 0 0 3 0 (f + 1) (by norm_num) (duo_first 0) (duo_next0 2 1 3 1 f (by norm_num) (duo_zero 2 1 1 (by norm_num)) (duo_loop0 (2 + 2) 1 3 2 f (by norm_num)))
  have b := duo_next1 (2 + 2) 1 3 2 (f + 1) (by norm_num) (duo_one (2 + 2) 1 2 (by norm_num)) (duo_loop1 (2 + 2) (1 + 2) 3 3 (f + 1) (by norm_num))
  have := duo_all a b
  rw [this]
  norm_num

/-- The same in three ticks. -/
theorem duo_tick1 (f : Nat) : instantiateVoices duo (f + 1) 1 (duoSt 0 0 0) = .ok (duoSt 2 1 1, [⟨0, 0, 2, 0, 0⟩]) :=
  duo_all (duo_next0 0 0 1 0 f (by norm_num) (duo_first 0) (duo_loop0 2 1 1 1 f (by norm_num))) (duo_loop1 2 1 1 1 (f + 1) (by norm_num))

theorem duo_tick2 (f : Nat) : instantiateVoices duo (f + 1) 2 (duoSt 2 1 1) = .ok (duoSt 2 3 2, [⟨1, 1, 2, 0, 1⟩]) := by
  have := duo_all (duo_loop0 2 1 2 1 (f + 1) (by norm_num)) (duo_next1 2 1 2 1 f (by norm_num) (duo_one 2 1 1 (by norm_num)) (duo_loop1 2 (1 + 2) 2 2 f (by norm_num)))
  rw [this]
  norm_num

theorem duo_tick3 (f : Nat) : instantiateVoices duo (f + 1) 3 (duoSt 2 3 2) = .ok (duoSt 4 3 3, [⟨0, 2, 2, 0, 2⟩]) := by
  have := duo_all (duo_next0 2 3 3 2 f (by norm_num) (duo_zero 2 3 2 (by norm_num)) (duo_loop0 (2 + 2) 3 3 3 f (by norm_num))) (duo_loop1 (2 + 2) 3 3 3 (f + 1) (by norm_num))
  rw [this]
  norm_num

/-- A node that outputs the hash it got. -/
def hashNode : Node ℝ 0 1 := Node.ofTick Nat id fun s _ => (s, fun _ => (s : ℝ))

section
variable {X : Node ℝ 0 n} {H : Heap ℝ X.σ} {ease : Fade → ℝ → ℝ} {setRate : ℝ → X.σ → X.σ} {c : Cfg R X.σ} {fuel : Nat}

theorem run_step1 {o : Op n} {s : St R X.σ} {t : ℝ} {v : Voices R} {gs : List (Grain X.σ)} (hsr : s.sr = 1) (ht : s.time + o.samples = t)
    (hi : instantiateVoices c fuel t s.voices = .ok (v, gs)) : ∃ s', ∃ fs : List (Frame ℝ n), s'.sr = 1 ∧ s'.time = t ∧ s'.voices = v ∧
      ∀ os r, St.run X H ease setRate c fuel os s' = .ok r →
        St.run X H ease setRate c fuel (o :: os) s = .ok (r.1, gs ++ r.2.1, fs ++ r.2.2) := by
  have hi' : instantiateVoices c fuel (s.time + o.samples / s.sr) s.voices = .ok (v, gs) := by rw [hsr, div_one, ht]; exact hi
  obtain ⟨s', fs, e⟩ := step_of (X := X) (H := H) (ease := ease) (setRate := setRate) hi'
  obtain ⟨a1, a2, a3, -, -⟩ := step_ok e
  rw [hi'] at a1
  refine ⟨s', fs, a3.trans hsr, by rw [a2, hsr, div_one, ht], ((Prod.mk.inj (Except.ok.inj a1)).1).symm, fun os r hr => ?_⟩
  unfold St.run
  rw [e]
  simp only
  rw [hr]

end

/-- **C80.** A block does not always spawn the same grains as ticks: with two voices the random phases of the grains depend on the block size. In a block,
the random number generator first serves all grains of the first voice, then those of the second. -/
theorem C80_violation_block (H : Heap ℝ Nat) (ease : Fade → ℝ → ℝ) (setRate : ℝ → Nat → Nat) (f ids : Nat) (out buf : Buf ℝ 1) (g : Garb ℝ) (inp : Buf ℝ 0) :
    ∃ r r' : St Nat Nat × List (Grain Nat) × List (Frame ℝ 1),
      St.run hashNode H ease setRate duo (f + 2) (List.replicate 3 .tick) (St.new duo 1 0 ids) = .ok r ∧
      St.run hashNode H ease setRate duo (f + 2) [.block 3 out buf g inp] (St.new duo 1 0 ids) = .ok r' ∧
      ofVoice 1 r.2.1 = [⟨1, 1, 2, 0, 1⟩] ∧ ofVoice 1 r'.2.1 = [⟨1, 1, 2, 0, 2⟩] := by
  have v0 : (St.new duo 1 0 ids : St Nat Nat).voices = duoSt 0 0 0 := duo_start 0
  obtain ⟨s1, f1, a1, a2, a3, a4⟩ := run_step1 (X := hashNode) (H := H) (ease := ease) (setRate := setRate) (c := duo) (fuel := f + 2) (o := .tick)
    (s := St.new duo 1 0 ids) (t := 1) rfl (by show (0 : ℝ) + ((1 : Nat) : ℝ) = 1; norm_num) ((congrArg _ v0).trans (duo_tick1 (f + 1)))
  obtain ⟨s2, f2, b1, b2, b3, b4⟩ := run_step1 (X := hashNode) (H := H) (ease := ease) (setRate := setRate) (c := duo) (fuel := f + 2) (o := .tick)
    (s := s1) (t := 2) a1 (by rw [a2]; show (1 : ℝ) + ((1 : Nat) : ℝ) = 2; norm_num) ((congrArg _ a3).trans (duo_tick2 (f + 1)))
  obtain ⟨s3, f3, d1, d2, d3, d4⟩ := run_step1 (X := hashNode) (H := H) (ease := ease) (setRate := setRate) (c := duo) (fuel := f + 2) (o := .tick)
    (s := s2) (t := 3) b1 (by rw [b2]; show (2 : ℝ) + ((1 : Nat) : ℝ) = 3; norm_num) ((congrArg _ b3).trans (duo_tick3 (f + 1)))
  obtain ⟨q1, p1, -, -, -, e4⟩ := run_step1 (X := hashNode) (H := H) (ease := ease) (setRate := setRate) (c := duo) (fuel := f + 2)
    (o := .block 3 out buf g inp) (s := St.new duo 1 0 ids) (t := 3) rfl (by show (0 : ℝ) + ((3 : Nat) : ℝ) = 3; norm_num)
    ((congrArg _ v0).trans (duo_block f))
  exact ⟨_, _, a4 _ _ (b4 _ _ (d4 [] _ rfl)), e4 [] _ rfl, rfl, rfl⟩

/-! ## Reset -/

/-- The sequencer of a granular synthesizer between calls. -/
structure SeqOk (rate : ℝ) (q : Sq ℝ U) : Prop where
  replay : q.replay = false
  sr : q.sr = rate
  sd : q.sd = 1 / rate

theorem SeqOk.push {sr : ℝ} {setRate : ℝ → U → U} {q : Sq ℝ U} (h : SeqOk sr q) (e : Ev ℝ U) : SeqOk sr (q.push setRate e) := by
  unfold Sq.push Sq.pushEvent
  split <;> exact ⟨h.replay, h.sr, h.sd⟩

theorem SeqOk.pushes {sr : ℝ} {setRate : ℝ → U → U} (es : List (Ev ℝ U)) {q : Sq ℝ U} (h : SeqOk sr q) : SeqOk sr (es.foldl (Sq.push setRate) q) := by
  induction es generalizing q with
  | nil => exact h
  | cons e es ih => exact ih (h.push e)

section
variable {X : Node ℝ 0 n} {H : Heap ℝ X.σ} {ease : Fade → ℝ → ℝ} {setRate : ℝ → X.σ → X.σ} {c : Cfg R X.σ} {fuel : Nat}

theorem readyLoop_kept {H : Heap ℝ U} {θ sr : ℝ} : ∀ (f : Nat) {q : Sq ℝ U}, SeqOk sr q → SeqOk sr (readyLoop H θ f q) := by
  intro f
  induction f with
  | zero => intro q h; exact h
  | succ f ih =>
    intro q h
    unfold readyLoop
    split
    · exact h
    · split
      · exact ih ⟨h.replay, h.sr, h.sd⟩
      · exact h

theorem SeqOk.ready {sr t : ℝ} {q : Sq ℝ X.σ} (h : SeqOk sr q) :
    SeqOk sr ((if q.replay then q else { q with past := [] }).readyToActive H t) := by
  rw [if_neg (by rw [h.replay]; simp)]
  unfold Sq.readyToActive
  exact readyLoop_kept _ ⟨h.replay, h.sr, h.sd⟩

theorem step_seq {sr : ℝ} {s s' : St R X.σ} {o : Op n} {gs : List (Grain X.σ)} {fs : List (Frame ℝ n)} (hs : SeqOk sr s.seq)
    (h : s.step X H ease setRate c fuel o = .ok (s', gs, fs)) : SeqOk sr s'.seq := by
  unfold St.step St.spawn at h
  simp only at h
  cases hi : instantiateVoices c fuel (s.time + o.samples / s.sr) s.voices with
  | error e => rw [hi] at h; cases h
  | ok r =>
    obtain ⟨v, gs'⟩ := r
    rw [hi] at h
    have hp : SeqOk sr ((events s.ids gs').foldl (Sq.push setRate) s.seq) := hs.pushes _
    cases o with
    | tick =>
      obtain ⟨e1, e2⟩ := Prod.mk.inj (Except.ok.inj h)
      subst e1
      have a := hp.ready (H := H) (t := (if ((events s.ids gs').foldl (Sq.push setRate) s.seq).replay then ((events s.ids gs').foldl (Sq.push setRate) s.seq) else { ((events s.ids gs').foldl (Sq.push setRate) s.seq) with past := [] }).time + (if ((events s.ids gs').foldl (Sq.push setRate) s.seq).replay then ((events s.ids gs').foldl (Sq.push setRate) s.seq) else { ((events s.ids gs').foldl (Sq.push setRate) s.seq) with past := [] }).sd)
      exact ⟨a.replay, a.sr, a.sd⟩
    | block size out buf g inp =>
      obtain ⟨e1, e2⟩ := Prod.mk.inj (Except.ok.inj h)
      subst e1
      have a := hp.ready (H := H) (t := (if ((events s.ids gs').foldl (Sq.push setRate) s.seq).replay then ((events s.ids gs').foldl (Sq.push setRate) s.seq) else { ((events s.ids gs').foldl (Sq.push setRate) s.seq) with past := [] }).time + (if ((events s.ids gs').foldl (Sq.push setRate) s.seq).replay then ((events s.ids gs').foldl (Sq.push setRate) s.seq) else { ((events s.ids gs').foldl (Sq.push setRate) s.seq) with past := [] }).sd * size)
      exact ⟨a.replay, a.sr, a.sd⟩

theorem run_seq {sr : ℝ} (ops : List (Op n)) : ∀ {s s' : St R X.σ} {gs : List (Grain X.σ)} {fs : List (Frame ℝ n)}, SeqOk sr s.seq →
    St.run X H ease setRate c fuel ops s = .ok (s', gs, fs) → SeqOk sr s'.seq := by
  induction ops with
  | nil =>
    intro s s' gs fs hs h
    obtain ⟨q1, -⟩ := Prod.mk.inj (Except.ok.inj h)
    subst q1; exact hs
  | cons o ops ih =>
    intro s s' gs fs hs h
    obtain ⟨s1, gs1, f1, gs2, f2, e1, e2, rfl, rfl⟩ := run_cons h
    exact ih (step_seq hs e1) e2

end

/-- **C80.** Reset brings the synthesizer back to its initial state, whatever was played: the same grains with the same random phases follow. -/
theorem C80_reset (fuel : Nat) (sr : ℝ) (hsr : 0 < sr) (seed ids : Nat) (ops : List (Op n)) (s : St R X.σ) (log : List (Grain X.σ)) (fs : List (Frame ℝ n))
    (h : St.run X H ease setRate c fuel ops (St.new c sr seed ids) = .ok (s, log, fs)) :
    St.reset c X.reset s = St.new c sr seed (ids + log.length) := by
  obtain ⟨-, -, h3, h4, h5⟩ := run_between hsr ops (log := []) rfl (new_between sr seed ids) h
  have h6 : SeqOk sr s.seq := run_seq ops (s := St.new c sr seed ids) ⟨rfl, rfl, rfl⟩ h
  have h4 : s.rndSeed = seed := h4
  have h5 : s.ids = ids + log.length := h5
  unfold St.reset St.new Sq.reset Sq.new
  rw [if_neg (by rw [h6.replay]; simp), h3, h4, h5, h6.replay, h6.sr, h6.sd]

/-- The grains spawned do not depend on the identifiers of events used before. -/
theorem run_log (fuel : Nat) (ops : List (Op n)) : ∀ (s t s' : St R X.σ) (log : List (Grain X.σ)) (fs : List (Frame ℝ n)), s.voices = t.voices → s.sr = t.sr →
    s.time = t.time → St.run X H ease setRate c fuel ops s = .ok (s', log, fs) →
    ∃ t' fs', St.run X H ease setRate c fuel ops t = .ok (t', log, fs') := by
  induction ops with
  | nil =>
    intro s t s' log fs _ _ _ h
    obtain ⟨q1, q2⟩ := Prod.mk.inj (Except.ok.inj h)
    obtain ⟨q2, -⟩ := Prod.mk.inj q2
    subst q2
    exact ⟨_, _, rfl⟩
  | cons o ops ih =>
    intro s t s' log fs h1 h2 h3 h
    obtain ⟨s1, gs1, f1, gs2, f2, e1, e2, rfl, rfl⟩ := run_cons h
    obtain ⟨a1, a2, a3, -, -⟩ := step_ok e1
    rw [h1, h2, h3] at a1
    obtain ⟨t1, g1, e1'⟩ := step_of (H := H) (ease := ease) (setRate := setRate) a1
    obtain ⟨b1, b2, b3, -, -⟩ := step_ok e1'
    rw [a1] at b1
    obtain ⟨t2, g2, e2'⟩ := ih s1 t1 s' gs2 f2 (Prod.mk.inj (Except.ok.inj b1)).1 (a3.trans (h2.trans b3.symm)) (by rw [a2, b2, h2, h3]) e2
    refine ⟨t2, g1 ++ g2, ?_⟩
    unfold St.run
    rw [e1']
    simp only
    rw [e2']

/-- **C80.** After a reset the same calls spawn the same grains as after creation. -/
theorem C80_replay (fuel : Nat) (sr : ℝ) (hsr : 0 < sr) (seed ids : Nat) (ops ops' : List (Op n)) (s s' : St R X.σ) (log log' : List (Grain X.σ))
    (fs fs' : List (Frame ℝ n)) (h : St.run X H ease setRate c fuel ops (St.new c sr seed ids) = .ok (s, log, fs))
    (h' : St.run X H ease setRate c fuel ops' (St.new c sr seed ids) = .ok (s', log', fs')) :
    ∃ s'' fs'', St.run X H ease setRate c fuel ops' (St.reset c X.reset s) = .ok (s'', log', fs'') := by
  rw [C80_reset X H ease setRate c fuel sr hsr seed ids ops s log fs h]
  exact run_log X H ease setRate c fuel ops' (St.new c sr seed ids) (St.new c sr seed (ids + log.length)) s' log' fs' rfl rfl rfl h'

/-- The runs of the theorems above exist: `duo` makes grains of two seconds, so that every run ends. -/
example : Steady duo 2 := ⟨by norm_num, fun _ _ _ _ _ _ => ⟨le_refl _, by show (0 : ℝ) + 2 ≤ 2; norm_num⟩⟩

example (H : Heap ℝ Nat) (ease : Fade → ℝ → ℝ) (setRate : ℝ → Nat → Nat) (m ids : Nat) :
    ∃ r, St.run hashNode H ease setRate duo m (List.replicate m .tick) (St.new duo 1 0 ids) = .ok r := by
  refine C80_total hashNode H ease setRate duo 2 ⟨by norm_num, fun _ _ _ _ _ _ => ⟨le_refl _, by show (0 : ℝ) + 2 ≤ 2; norm_num⟩⟩ 1 one_pos 0 ids _ m ?_
  have e : total (List.replicate m (Op.tick : Op 1)) 1 = m := by simp [total, Op.samples]
  rw [e]
  have : (0 : ℝ) ≤ m := Nat.cast_nonneg m
  linarith

end Fundsp.Gran
