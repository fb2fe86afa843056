import Verif.Seq.Refine

/-! Ticks and blocks of the sequencer against the specification. -/

namespace Fundsp.Seq
variable {K : Type} [Field K] [LinearOrder K] [IsStrictOrderedRing K] [FloorRing K] {n : Nat} {B U : Type}

/-- State of a unit after `k` samples. -/
def bst (tick : B → B × Frame K n) (b : B) : Nat → B
  | 0 => b
  | k + 1 => (tick (bst tick b k)).1

/-- Sample `k` of a unit. -/
def bout (tick : B → B × Frame K n) (b : B) (k : Nat) : Frame K n := (tick (bst tick b k)).2

/-- Event after `j` samples of the specification. -/
noncomputable def advN (tick : B → B × Frame K n) (sd t : K) (e : Ev K B) : Nat → Ev K B
  | 0 => e
  | j + 1 => Ev.adv tick sd (t + j * sd) (advN tick sd t e j)

theorem Sp.ticks_succ (tick : B → B × Frame K n) (ease : Fade → K → K) : ∀ (k : Nat) (p : Sp K B),
    p.ticks tick ease (k + 1) = (((p.ticks tick ease k).1.tick tick ease).1,
      (p.ticks tick ease k).2 ++ [((p.ticks tick ease k).1.tick tick ease).2]) := by
  intro k
  induction k with
  | zero => intro p; rfl
  | succ k ih =>
    intro p
    have h1 : p.ticks tick ease (k + 1 + 1) = (((p.tick tick ease).1.ticks tick ease (k + 1)).1,
      (p.tick tick ease).2 :: ((p.tick tick ease).1.ticks tick ease (k + 1)).2) := rfl
    have h2 : p.ticks tick ease (k + 1) = (((p.tick tick ease).1.ticks tick ease k).1,
      (p.tick tick ease).2 :: ((p.tick tick ease).1.ticks tick ease k).2) := rfl
    rw [h1, ih, h2]; rfl

theorem Sp.ticks_eq (tick : B → B × Frame K n) (ease : Fade → K → K) (p : Sp K B) (k : Nat) :
    p.ticks tick ease k = ({ p with evs := p.evs.map (fun e => advN tick p.sd p.time e k), time := p.time + k * p.sd },
      (List.range k).map fun j c => (p.evs.map fun e => (advN tick p.sd p.time e j).out tick ease p.sd (p.time + j * p.sd) c).sum) := by
  induction k with
  | zero => simp [Sp.ticks, advN]
  | succ k ih =>
    rw [Sp.ticks_succ, ih, List.range_succ, List.map_append]
    simp only [Sp.tick, List.map_map, List.map_cons, List.map_nil]
    congr 2
    simp only [Nat.cast_add, Nat.cast_one]; ring

theorem sounds_unit {e : Ev K B} {u : B} {x : K} : Ev.sounds { e with unit := u } x ↔ e.sounds x := Iff.rfl

/-- Events that sound exactly in the samples `a ≤ j < b`. -/
theorem advN_window (tick : B → B × Frame K n) (ease : Fade → K → K) (sd t : K) (e : Ev K B) (m a b : Nat)
    (hw : ∀ j < m, e.sounds (t + j * sd + sd / 2) ↔ a ≤ j ∧ j < b) :
    (∀ j ≤ m, advN tick sd t e j = { e with unit := bst tick e.unit (min j b - a) }) ∧
    ∀ j < m, ∀ c, (advN tick sd t e j).out tick ease sd (t + j * sd) c =
      if a ≤ j ∧ j < b then gain ease e (t + j * sd) * bout tick e.unit (j - a) c else 0 := by
  have h1 : ∀ j ≤ m, advN tick sd t e j = { e with unit := bst tick e.unit (min j b - a) } := by
    intro j
    induction j with
    | zero => intro _; simp [advN, bst]
    | succ j ih =>
      intro hj
      have hjm : j < m := by omega
      simp only [advN]
      rw [ih (by omega)]
      unfold Ev.adv
      by_cases hs : a ≤ j ∧ j < b
      · rw [if_pos ((sounds_unit).2 ((hw j hjm).2 hs))]
        have : min (j + 1) b - a = (min j b - a) + 1 := by omega
        rw [this]; rfl
      · rw [if_neg (fun h => hs ((hw j hjm).1 (sounds_unit.1 h)))]
        have : min (j + 1) b - a = min j b - a := by omega
        rw [this]
  refine ⟨h1, ?_⟩
  intro j hj c
  rw [h1 j (by omega)]
  unfold Ev.out
  by_cases hs : a ≤ j ∧ j < b
  · rw [if_pos (sounds_unit.2 ((hw j hj).2 hs)), if_pos hs]
    have : min j b - a = j - a := by omega
    simp only [this]; rfl
  · rw [if_neg (fun h => hs ((hw j hj).1 (sounds_unit.1 h))), if_neg hs]

theorem sounds_iff {e : Ev K U} {x : K} : e.sounds x ↔ e.start < x ∧ e.endsBy x = false := by
  unfold Ev.sounds Ev.endsBy
  cases e.stop with
  | none => simp
  | some s => simp

/-- Events that do not sound at all during the next `m` samples. -/
theorem advN_silent (tick : B → B × Frame K n) (ease : Fade → K → K) (sd t : K) (e : Ev K B) (m : Nat)
    (hw : ∀ j < m, ¬ e.sounds (t + j * sd + sd / 2)) :
    (∀ j ≤ m, advN tick sd t e j = e) ∧
    ∀ j < m, ∀ c, (advN tick sd t e j).out tick ease sd (t + j * sd) c = 0 := by
  obtain ⟨h1, h2⟩ := advN_window tick ease sd t e m 0 0 (fun j hj => ⟨fun h => absurd h (hw j hj), fun h => absurd h.2 (by omega)⟩)
  refine ⟨fun j hj => ?_, fun j hj c => ?_⟩
  · rw [h1 j hj]; simp [bst]
  · rw [h2 j hj c]; simp

theorem delerp_lt {a b t : K} (h : 0 < b) : delerp a (a + b) t < 1 ↔ t < a + b := by
  unfold delerp
  rw [show a + b - a = b by ring, div_lt_one h]
  constructor <;> intro h <;> linarith

theorem delerp_pos {a b t : K} (h : 0 < b) : 0 < delerp (a - b) a t ↔ a - b < t := by
  unfold delerp
  rw [show a - (a - b) = b by ring]
  constructor
  · intro h2
    have := (div_pos_iff_of_pos_right h).1 h2; linarith
  · intro h2
    exact div_pos (by linarith) h

/-- The fades of `tick` are the gain of the specification. -/
theorem tickFade_eq (ease : Fade → K → K) (e : Ev K U) (t : K) (v : Frame K n) (c : Fin n) : tickFade ease e t v c = gain ease e t * v c := by
  have hin : (if 0 < e.fadeIn then
      (let f := delerp e.start (e.start + e.fadeIn) t
       if f < 1 then (fun c => v c * ease e.ease f) else v) else v) = fun c => gainIn ease e t * v c := by
    unfold gainIn
    by_cases hfi : 0 < e.fadeIn
    · rw [if_pos hfi]
      simp only [delerp_lt hfi]
      by_cases hlt : t < e.start + e.fadeIn
      · rw [if_pos hlt, if_neg (by push Not; exact ⟨hfi, hlt⟩)]
        funext c
        rw [mul_comm]
        congr 2
        unfold delerp; congr 1; ring
      · rw [if_neg hlt, if_pos (.inr (not_lt.1 hlt))]; funext c; ring
    · rw [if_neg hfi, if_pos (.inl (not_lt.1 hfi))]; funext c; ring
  unfold tickFade
  simp only [hin]
  unfold gain gainOut
  cases hst : e.stop with
  | none => simp
  | some stop =>
    by_cases hfo : 0 < e.fadeOut
    · simp only [if_pos hfo, delerp_pos hfo]
      by_cases hlt : stop - e.fadeOut < t
      · rw [if_pos hlt, if_neg (by push Not; exact ⟨hfo, hlt⟩)]
        have : 1 - delerp (stop - e.fadeOut) stop t = (stop - t) / e.fadeOut := by
          unfold delerp
          rw [show stop - (stop - e.fadeOut) = e.fadeOut by ring]
          field_simp; ring
        simp only [this]; ring
      · rw [if_neg hlt, if_pos (.inr (not_lt.1 hlt))]; ring
    · rw [if_neg hfo]; simp only [if_pos (show e.fadeOut ≤ 0 ∨ t ≤ stop - e.fadeOut from .inl (not_lt.1 hfo))]; ring

/-- What the refinement needs to know about the units: `beh u` behaves like `u`. -/
structure Behaves (X : Node K 0 n) (tick : B → B × Frame K n) (reset : B → B) (beh : X.σ → B) : Prop where
  tick : ∀ s x, tick (beh s) = (beh (X.tick s x).1, (X.tick s x).2)
  reset : ∀ s, reset (beh s) = beh (X.reset s)

/-- The same for blocks. -/
def BehavesBlock (X : Node K 0 n) (tick : B → B × Frame K n) (beh : X.σ → B) : Prop :=
  ∀ g s size inp out, size ≤ 64 → beh (X.process g s size inp out).1 = bst tick (beh s) size ∧
    ∀ k < size, (X.process g s size inp out).2.frame k = bout tick (beh s) k

theorem gain_map {f : U → B} (ease : Fade → K → K) (e : Ev K U) (t : K) : gain ease (e.map f) t = gain ease e t := rfl

theorem silent_of_endsBy {e : Ev K U} {sd t x : K} (hsd : 0 < sd) (hx : x ≤ t + sd / 2) (h : e.endsBy x = true) (j : ℕ) :
    ¬ e.sounds (t + j * sd + sd / 2) := by
  rw [sounds_iff]
  rintro ⟨_, h2⟩
  have h3 : (0 : K) ≤ j * sd := by positivity
  have := endsBy_mono h (show x ≤ t + j * sd + sd / 2 by linarith)
  rw [h2] at this; simp at this

/-- Common part of `tick` and `process`: from the effect of playing one event to the effect of playing all. -/
theorem Rel.playAll {A : Type} {X : Node K 0 n} {tick : B → B × Frame K n} {beh : X.σ → B} {s : Sq K X.σ} {p : Sp K B} {gone}
    (h : Rel beh s p gone) (H : Heap K X.σ) (ease : Fade → K → K) (m : Nat) (hm : 1 ≤ m) (t1 : K) (ht1 : t1 = s.time + m * s.sd)
    (play : Ev K X.σ → A → Ev K X.σ × A) (hid : ∀ e a, (play e a).1.id = e.id) (hst : ∀ e a, (play e a).1.start = e.start) (a : A)
    (obs : A → Nat → Frame K n) (h0 : ∀ j < m, obs a j = fun _ => 0)
    (hplay : ∀ e : Ev K X.σ, e.map beh ∈ p.evs → e.start < t1 - s.sd / 2 → e.endsBy (s.time + s.sd / 2) = false → ∀ a,
      (play e a).1.map beh = advN tick s.sd s.time (e.map beh) m ∧
      ∀ j < m, ∀ c, obs (play e a).2 j c = obs a j c + (advN tick s.sd s.time (e.map beh) j).out tick ease s.sd (s.time + j * s.sd) c) :
    let s0 := if s.replay then s else { s with past := [] }
    let s1 := s0.readyToActive H t1
    let l := evLoop (s1.time + 1 / 2 * s1.sd) play s1.active.length 0 ⟨s1.active, s1.amap, s1.past, a⟩
    s1.time = s.time ∧ s1.sr = s.sr ∧ s1.sd = s.sd ∧
    (∃ gone', Rel beh { s1 with active := l.active, amap := l.amap, past := l.past, time := t1 } (p.ticks tick ease m).1 gone') ∧
    (p.ticks tick ease m).2 = (List.range m).map (obs l.acc) := by
  intro s0 s1 l
  have hsd := h.sd_pos
  have hm' : (1 : K) ≤ m := by exact_mod_cast hm
  have hge : s.time + s.sd ≤ t1 := by rw [ht1]; nlinarith
  obtain ⟨P, Q, R, q1, q2, q3, q4, q5, q6, q7, q8, q9, q10⟩ := h.play H t1 hge play hid hst a
  refine ⟨q6, q7, q8, ?_⟩
  rw [Sp.ticks_eq, h.sd, h.time]
  -- effect on the played events
  have hP : ∀ (P' : List (Ev K X.σ)), (∀ e ∈ P', e ∈ P) → ∀ a,
      (mapAcc play P' a).1.map (Ev.map beh) = (P'.map (Ev.map beh)).map (fun e => advN tick s.sd s.time e m) ∧
      ∀ j < m, ∀ c, obs (mapAcc play P' a).2 j c = obs a j c +
        ((P'.map (Ev.map beh)).map fun e => (advN tick s.sd s.time e j).out tick ease s.sd (s.time + j * s.sd) c).sum := by
    intro P'
    induction P' with
    | nil => intro _ a; simp [mapAcc]
    | cons e P' ih =>
      intro hsub a
      have heP := hsub e (List.mem_cons_self ..)
      have hem : e.map beh ∈ p.evs := q1.mem_iff.2 (List.mem_map_of_mem (by simp [heP]))
      obtain ⟨p1, p2⟩ := hplay e hem (q2 e heP).1 (q2 e heP).2 a
      obtain ⟨i1, i2⟩ := ih (fun e' he' => hsub e' (List.mem_cons_of_mem _ he')) (play e a).2
      refine ⟨?_, ?_⟩
      · simp only [mapAcc, List.map_cons, p1, i1]
      · intro j hj c
        simp only [mapAcc, List.map_cons, List.sum_cons]
        rw [i2 j hj c, p2 j hj c]; ring
  obtain ⟨p1, p2⟩ := hP P (fun e he => he) a
  -- the others are silent
  have hsil : ∀ e ∈ Q ++ R ++ gone, ∀ j < m, ¬ (e.map beh).sounds (s.time + j * s.sd + s.sd / 2) := by
    intro e he j hj
    rcases List.mem_append.1 he with he | he
    · rcases List.mem_append.1 he with he | he
      · exact silent_of_endsBy hsd (le_refl _) (e := e.map beh) (q3 e he) j
      · intro hs
        have h1 := hs.1
        have h2 := q4 e he
        have h3 : (j : K) + 1 ≤ m := by exact_mod_cast hj
        have h4 : (e.map beh).start = e.start := rfl
        rw [h4] at h1
        rw [ht1] at h2
        nlinarith
    · exact silent_of_endsBy hsd (by linarith) (e := e.map beh) (q5 e he) j
  have hsilM : ∀ l' : List (Ev K X.σ), (∀ e ∈ l', e ∈ Q ++ R ++ gone) →
      (l'.map (Ev.map beh)).map (fun e => advN tick s.sd s.time e m) = l'.map (Ev.map beh) := by
    intro l' hl'
    conv_rhs => rw [← List.map_id (l'.map (Ev.map beh))]
    apply List.map_congr_left
    intro e' he'
    obtain ⟨e, he, rfl⟩ := List.mem_map.1 he'
    exact (advN_silent tick ease s.sd s.time (e.map beh) m (hsil e (hl' e he))).1 m (Nat.le_refl _)
  have hsilO : ∀ l' : List (Ev K X.σ), (∀ e ∈ l', e ∈ Q ++ R ++ gone) → ∀ j < m, ∀ c,
      ((l'.map (Ev.map beh)).map fun e => (advN tick s.sd s.time e j).out tick ease s.sd (s.time + j * s.sd) c).sum = 0 := by
    intro l' hl' j hj c
    apply List.sum_eq_zero
    intro x hx
    obtain ⟨e', he', rfl⟩ := List.mem_map.1 hx
    obtain ⟨e, he, rfl⟩ := List.mem_map.1 he'
    exact (advN_silent tick ease s.sd s.time (e.map beh) m (hsil e (hl' e he))).2 j hj c
  refine ⟨⟨gone ++ Q, q10 _ ht1.symm rfl h.sd.symm rfl rfl ?_⟩, ?_⟩
  · show (p.evs.map fun e => advN tick s.sd s.time e m).Perm _
    refine (q1.map _).trans ?_
    simp only [List.map_append]
    rw [p1, hsilM Q (fun e he => by simp [he]), hsilM R (fun e he => by simp [he]), hsilM gone (fun e he => by simp [he])]
    simp only [List.append_assoc]
    refine List.Perm.append_left _ ?_
    refine List.perm_append_comm.trans ?_
    simp only [List.append_assoc]; exact List.Perm.refl _
  · apply List.map_congr_left
    intro j hj
    have hj' := List.mem_range.1 hj
    funext c
    show (p.evs.map fun e => (advN tick s.sd s.time e j).out tick ease s.sd (s.time + j * s.sd) c).sum = obs l.acc j c
    rw [(q1.map _).sum_eq, q9, p2 j hj' c, h0 j hj']
    simp only [List.map_append, List.sum_append]
    rw [hsilO Q (fun e he => by simp [he]) j hj' c, hsilO R (fun e he => by simp [he]) j hj' c, hsilO gone (fun e he => by simp [he]) j hj' c]
    ring

/-- One tick. -/
theorem Rel.tick {X : Node K 0 n} {tick : B → B × Frame K n} {reset : B → B} {beh : X.σ → B} (hX : Behaves X tick reset beh)
    {s : Sq K X.σ} {p : Sp K B} {gone} (h : Rel beh s p gone) (H : Heap K X.σ) (ease : Fade → K → K) :
    (∃ gone', Rel beh (s.tick X H ease).1 (p.ticks tick ease 1).1 gone') ∧ (p.ticks tick ease 1).2 = [(s.tick X H ease).2] := by
  have hsd := h.sd_pos
  have key := h.playAll (tick := tick) H ease 1 (Nat.le_refl _) (s.time + s.sd) (by simp) (tickPlay X ease s.time) (fun _ _ => rfl) (fun _ _ => rfl)
    (fun _ => 0) (fun a _ => a) (fun _ _ => rfl) (by
      intro e _ h1 h2 a
      have hs : (e.map beh).sounds (s.time + s.sd / 2) := by
        rw [sounds_iff]
        exact ⟨by have : (e.map beh).start = e.start := rfl
                  rw [this]; linarith, h2⟩
      refine ⟨?_, ?_⟩
      · simp only [advN, Nat.cast_zero, zero_mul, add_zero]
        unfold Ev.adv
        rw [if_pos hs]
        have := hX.tick e.unit Fin.elim0
        simp only [tickPlay, Ev.map, this]
      · intro j hj c
        obtain rfl : j = 0 := by omega
        simp only [advN, Nat.cast_zero, zero_mul, add_zero]
        unfold Ev.out
        rw [if_pos hs]
        have := hX.tick e.unit Fin.elim0
        simp only [tickPlay, tickFade_eq, gain_map]
        simp only [Ev.map, this])
  obtain ⟨k1, k2, k3, k4, k5⟩ := key
  have e0 : (if s.replay = true then s else { s with past := [] }).time = s.time := by split <;> rfl
  have e1 : (if s.replay = true then s else { s with past := [] }).sd = s.sd := by split <;> rfl
  unfold Sq.tick
  simp only [e0, e1]
  rw [k1] at k4 k5 ⊢
  exact ⟨k4, by rw [k5]; rfl⟩

theorem rnd_le {y : K} {k : ℕ} : rnd y ≤ k ↔ y < k + 1 / 2 := by
  unfold rnd
  rw [Int.toNat_le, ← Int.lt_add_one_iff, Int.floor_lt]
  push_cast
  constructor <;> intro h <;> linarith

theorem rnd_nat (m : ℕ) : rnd (m : K) = m := by
  apply le_antisymm
  · rw [rnd_le]; linarith
  · by_contra hc
    have hc' : rnd (m : K) < m := by omega
    have : rnd (m : K) ≤ m - 1 := by omega
    rw [rnd_le] at this
    have h1 : 1 ≤ m := by omega
    rw [Nat.cast_sub h1] at this
    push_cast at this
    linarith

/-- Start and end index delimit the samples in which the event sounds. -/
theorem window_iff {sr sd t : K} {size : ℕ} (hsd : 0 < sd) (hss : sr * sd = 1) {e : Ev K U} (hb : BlockOk sd t size e)
    (he : e.endsBy (t + sd / 2) = false) {j : ℕ} (hj : j < size) :
    e.sounds (t + j * sd + sd / 2) ↔ startIndex sr t e ≤ j ∧ j < endIndex sr t (t + sd * size) size e := by
  have hj0 : (0 : K) ≤ j * sd := by positivity
  have hj1 : (j : K) + 1 ≤ size := by exact_mod_cast hj
  have hdiv : ∀ y : K, y * sr * sd = y := fun y => by rw [mul_assoc, hss, mul_one]
  have hsr : 0 < sr := by
    by_contra hc
    have := mul_nonpos_of_nonpos_of_nonneg (not_lt.1 hc) hsd.le
    rw [hss] at this; linarith
  have hlt : ∀ y z : K, y * sr < z ↔ y < z * sd := by
    intro y z
    constructor
    · intro h; have := mul_lt_mul_of_pos_right h hsd; rwa [hdiv] at this
    · intro h
      have := mul_lt_mul_of_pos_right h hsr
      rwa [mul_assoc, mul_comm sd sr, hss, mul_one] at this
  have hle : ∀ y z : K, z ≤ y * sr ↔ z * sd ≤ y := by
    intro y z; rw [← not_lt, ← not_lt, hlt]
  refine and_congr ?_ ?_
  · unfold startIndex
    split
    · rename_i h; exact ⟨fun _ => Nat.zero_le _, fun _ => by linarith⟩
    · rw [rnd_le, hlt]
      constructor <;> intro h <;> linarith
  · unfold endIndex
    cases hst : e.stop with
    | none => simp [hj]
    | some x =>
      have hx : t + sd / 2 < x := by
        unfold Ev.endsBy at he; rw [hst] at he; simpa using he
      simp only [Option.some.injEq, forall_eq']
      split
      · rename_i h
        refine ⟨fun _ => hj, fun _ => ?_⟩
        nlinarith
      · rename_i h
        rw [← not_le (b := j), rnd_le, not_lt, hle]
        have hne := hb.half x hst hx (not_le.1 h) j
        constructor
        · intro h; linarith
        · intro h
          refine lt_of_le_of_ne ?_ ?_
          · linarith
          · intro hc; exact hne (by rw [← hc]; ring)

theorem endIndex_le {sr sd t : K} {size : ℕ} (hsd : 0 < sd) (hss : sr * sd = 1) (e : Ev K U) :
    endIndex sr t (t + sd * size) size e ≤ size := by
  unfold endIndex
  split
  · exact Nat.le_refl _
  · rename_i x hst
    split
    · exact Nat.le_refl _
    · rename_i h
      rw [rnd_le]
      have hsr : 0 < sr := by
        by_contra hc
        have := mul_nonpos_of_nonpos_of_nonneg (not_lt.1 hc) hsd.le
        rw [hss] at this; linarith
      have h1 : x - t < sd * size := by linarith
      have := mul_lt_mul_of_pos_right h1 hsr
      have h2 : sd * size * sr = size := by rw [mul_comm sd, mul_assoc, mul_comm sd, hss, mul_one]
      rw [h2] at this
      linarith

theorem startIndex_zero {sr sd t : K} (hsd : 0 < sd) (hss : sr * sd = 1) {e : Ev K U} (h : e.start < t + sd / 2) : startIndex sr t e = 0 := by
  unfold startIndex
  split
  · rfl
  · rename_i h2
    have hsr : 0 < sr := by
      by_contra hc
      have := mul_nonpos_of_nonpos_of_nonneg (not_lt.1 hc) hsd.le
      rw [hss] at this; linarith
    apply Nat.le_zero.1
    rw [rnd_le]
    have h1 : e.start - t < sd / 2 := by linarith
    have := mul_lt_mul_of_pos_right h1 hsr
    have h3 : sd / 2 * sr = 1 / 2 := by rw [div_mul_eq_mul_div, mul_comm sd, hss]
    rw [h3] at this
    simpa using this

/-- `fade_in` on blocks. -/
theorem blockFadeIn_eq (ease : Fade → K → K) {sr sd t : K} {size : ℕ} (hsd : 0 < sd) (hss : sr * sd = 1) {e : Ev K U} (hb : BlockOk sd t size e)
    (b : Buf K n) (c : Fin n) (k : ℕ) (hk0 : startIndex sr t e ≤ k) (hk1 : k < endIndex sr t (t + sd * size) size e) (hk : k < size) :
    blockFadeIn ease sd t (t + sd * size) (startIndex sr t e) (endIndex sr t (t + sd * size) size e) e b c (k - startIndex sr t e) =
      gainIn ease e (t + k * sd) * b c (k - startIndex sr t e) := by
  have hk2 : (0 : K) ≤ k * sd := by positivity
  have hk3 : (k : K) + 1 ≤ size := by exact_mod_cast hk
  unfold blockFadeIn gainIn
  by_cases hfi : 0 < e.fadeIn
  swap
  · rw [if_neg (fun h => hfi h.1), if_pos (.inl (not_lt.1 hfi)), one_mul]
  by_cases hfe : t < e.start + e.fadeIn
  swap
  · rw [if_neg (fun h => hfe h.2), if_pos (.inr (by linarith)), one_mul]
  simp only [hfi, hfe, and_self, if_true]
  have hph : delerp e.start (e.start + e.fadeIn) (t + (startIndex sr t e : K) * sd) + ((k - startIndex sr t e : ℕ) : K) * (sd / e.fadeIn) =
      (t + k * sd - e.start) / e.fadeIn := by
    unfold delerp
    rw [Nat.cast_sub hk0, show e.start + e.fadeIn - e.start = e.fadeIn by ring]
    field_simp; ring
  rw [hph]
  have hnfi : ¬ e.fadeIn ≤ 0 := not_le.2 hfi
  simp only [hnfi, false_or]
  have hiff : (k - startIndex sr t e < if t + sd * size ≤ e.start + e.fadeIn then endIndex sr t (t + sd * size) size e
      else rnd ((e.start + e.fadeIn - t) / sd)) ↔ ¬ e.start + e.fadeIn ≤ t + k * sd := by
    by_cases hT : t + sd * size ≤ e.start + e.fadeIn
    · rw [if_pos hT]
      refine ⟨fun _ => by rw [not_le]; nlinarith, fun _ => by omega⟩
    · rw [if_neg hT]
      rcases hb.fadeIn with h | h | h | ⟨h, m, hm⟩
      · exact absurd h hnfi
      · exact absurd hfe (not_lt.2 h)
      · exact absurd h hT
      · rw [startIndex_zero hsd hss h, Nat.sub_zero, hm, show (t + m * sd - t) / sd = m by field_simp; ring, rnd_nat, not_le]
        constructor
        · intro h
          have : (k : K) < m := by exact_mod_cast h
          nlinarith
        · intro h
          have : (k : K) * sd < m * sd := by linarith
          exact_mod_cast lt_of_mul_lt_mul_right this hsd.le
  by_cases hle : e.start + e.fadeIn ≤ t + k * sd
  · rw [if_neg (fun h => hiff.1 h hle), if_pos hle, one_mul]
  · rw [if_pos (hiff.2 hle), if_neg hle, mul_comm]

/-- `fade_out` on blocks. -/
theorem blockFadeOut_eq (ease : Fade → K → K) (h1 : ∀ f, ease f 1 = 1) {sr sd t : K} {size : ℕ} (hsd : 0 < sd) (hss : sr * sd = 1)
    {e : Ev K U} (hb : BlockOk sd t size e)
    (b : Buf K n) (c : Fin n) (k : ℕ) (hk0 : startIndex sr t e ≤ k) (hk1 : k < endIndex sr t (t + sd * size) size e) (hk : k < size) :
    blockFadeOut ease sd t (t + sd * size) (startIndex sr t e) (endIndex sr t (t + sd * size) size e) e b c (k - startIndex sr t e) =
      gainOut ease e (t + k * sd) * b c (k - startIndex sr t e) := by
  have hk2 : (0 : K) ≤ k * sd := by positivity
  have hk3 : (k : K) + 1 ≤ size := by exact_mod_cast hk
  unfold blockFadeOut gainOut
  cases hst : e.stop with
  | none => simp
  | some st =>
    simp only
    by_cases hfo : 0 < e.fadeOut
    swap
    · rw [if_neg (fun h => hfo h.1), if_pos (.inl (not_lt.1 hfo)), one_mul]
    have hnfo : ¬ e.fadeOut ≤ 0 := not_le.2 hfo
    simp only [hnfo, false_or]
    rcases hb.fadeOut st hst with h | h | ⟨h, h'⟩
    · exact absurd h hnfo
    · rw [if_neg (fun h2 => absurd h2.2 (not_lt.2 h)), if_pos (by nlinarith), one_mul]
    · rw [startIndex_zero hsd hss h] at *
      simp only [Nat.sub_zero]
      have hval : ∀ m : ℕ, m ≤ k → 1 - (delerp (st - e.fadeOut) st (t + (m : K) * sd) + ((k - m : ℕ) : K) * (sd / e.fadeOut)) =
          (st - (t + k * sd)) / e.fadeOut := by
        intro m hmk
        unfold delerp
        rw [Nat.cast_sub hmk, show st - (st - e.fadeOut) = e.fadeOut by ring]
        field_simp; ring
      by_cases hT : st - e.fadeOut < t + sd * size
      swap
      · rw [if_neg (fun h => hT h.2), if_pos (by nlinarith), one_mul]
      rw [if_pos ⟨hfo, hT⟩]
      obtain ⟨m, hm, hmv⟩ : ∃ m : ℕ, (if st - e.fadeOut ≤ t then 0 else rnd ((st - e.fadeOut - t) / sd)) = m ∧
          ((m = 0 ∧ st - e.fadeOut ≤ t) ∨ st - e.fadeOut = t + m * sd) := by
        by_cases h0 : st - e.fadeOut ≤ t
        · exact ⟨0, if_pos h0, .inl ⟨rfl, h0⟩⟩
        · rw [if_neg h0]
          rcases h' with h' | ⟨m, h'⟩
          · exact absurd h' h0
          · refine ⟨m, ?_, .inr h'⟩
            rw [h', show (t + m * sd - t) / sd = m by field_simp; ring, rnd_nat]
      rw [hm]
      by_cases hmk : m ≤ k
      · rw [if_pos ⟨hmk, hk1⟩, hval m hmk, mul_comm]
        congr 1
        by_cases hle : t + (k : K) * sd ≤ st - e.fadeOut
        · rw [if_pos hle]
          have : st - (t + k * sd) = e.fadeOut := by
            rcases hmv with ⟨rfl, h0⟩ | h0
            · linarith
            · have : (m : K) ≤ k := by exact_mod_cast hmk
              have : (m : K) * sd ≤ k * sd := mul_le_mul_of_nonneg_right this hsd.le
              linarith
          rw [this, div_self hfo.ne', h1]
        · rw [if_neg hle]
      · rw [if_neg (fun h => hmk h.1)]
        have hkm : (k : K) < m := by exact_mod_cast (not_le.1 hmk)
        rw [if_pos, one_mul]
        rcases hmv with ⟨rfl, h0⟩ | h0
        · omega
        · rw [h0]
          have : (k : K) * sd ≤ m * sd := mul_le_mul_of_nonneg_right hkm.le hsd.le
          linarith

/-- One block. -/
theorem Rel.block {X : Node K 0 n} {tick : B → B × Frame K n} {beh : X.σ → B} (hX : BehavesBlock X tick beh)
    {s : Sq K X.σ} {p : Sp K B} {gone} (h : Rel beh s p gone) (H : Heap K X.σ) (ease : Fade → K → K) (he1 : ∀ f, ease f 1 = 1)
    (size : ℕ) (h1 : 1 ≤ size) (h64 : size ≤ 64) (hok : ∀ e ∈ p.evs, BlockOk p.sd p.time size e) (g : Garb K) (inp : Buf K 0)
    (buf out : Buf K n) :
    (∃ gone', Rel beh (s.process X H ease g inp buf size out).1 (p.ticks tick ease size).1 gone') ∧
    (p.ticks tick ease size).2 = (List.range size).map (s.process X H ease g inp buf size out).2.frame := by
  have hsd := h.sd_pos
  have hss := h.sr_sd
  have key := h.playAll (tick := tick) H ease size h1 (s.time + s.sd * size) (by ring)
    (blockPlay X ease g inp s.sr s.sd s.time (s.time + s.sd * size) size)
    (fun e a => by unfold blockPlay; simp only; split <;> rfl) (fun e a => by unfold blockPlay; simp only; split <;> rfl)
    (setItems size (fun _ _ => 0) out, buf) (fun a => a.1.frame)
    (fun j hj => by
      funext c
      show setItems size (fun _ _ => 0) out c j = 0
      unfold setItems simdItems
      rw [if_pos (by rw [Nat.shiftRight_eq_div_pow]; omega)])
    (by
      intro e hem hstart hend a
      have hb : BlockOk s.sd s.time size e := by
        have := hok _ hem
        rw [h.sd, h.time] at this
        exact ⟨this.half, this.fadeIn, this.fadeOut⟩
      have hi1 := endIndex_le (t := s.time) (size := size) hsd hss e
      obtain ⟨w1, w2⟩ := advN_window tick ease s.sd s.time (e.map beh) size (startIndex s.sr s.time e)
        (endIndex s.sr s.time (s.time + s.sd * size) size e) (fun j hj => window_iff hsd hss hb hend hj)
      rw [w1 size (Nat.le_refl _)]
      have hmin : min size (endIndex s.sr s.time (s.time + s.sd * size) size e) = endIndex s.sr s.time (s.time + s.sd * size) size e := by omega
      rw [hmin]
      unfold blockPlay
      simp only
      by_cases hlt : startIndex s.sr s.time e < endIndex s.sr s.time (s.time + s.sd * size) size e
      · rw [if_pos hlt]
        obtain ⟨x1, x2⟩ := hX g e.unit (endIndex s.sr s.time (s.time + s.sd * size) size e - startIndex s.sr s.time e) inp a.2 (by omega)
        refine ⟨?_, ?_⟩
        · simp only [Ev.map, x1]
        · intro j hj c
          rw [w2 j hj c, gain_map]
          -- the mixing loops add sample by sample
          have hmix : ∀ bb : Buf K n, (if startIndex s.sr s.time e = 0 then
              addSamples (8 * (endIndex s.sr s.time (s.time + s.sd * size) size e >>> 3)) (endIndex s.sr s.time (s.time + s.sd * size) size e)
                (startIndex s.sr s.time e) bb (addItems (endIndex s.sr s.time (s.time + s.sd * size) size e >>> 3) bb a.1)
              else addSamples (startIndex s.sr s.time e) (endIndex s.sr s.time (s.time + s.sd * size) size e) (startIndex s.sr s.time e) bb a.1) c j =
              a.1 c j + if startIndex s.sr s.time e ≤ j ∧ j < endIndex s.sr s.time (s.time + s.sd * size) size e
                then bb c (j - startIndex s.sr s.time e) else 0 := by
            intro bb
            generalize endIndex s.sr s.time (s.time + s.sd * size) size e = i1 at *
            generalize startIndex s.sr s.time e = i0 at *
            have h8 : i1 >>> 3 = i1 / 8 := by rw [Nat.shiftRight_eq_div_pow]
            by_cases hi0 : i0 = 0
            · subst hi0
              rw [if_pos rfl]
              unfold addSamples addItems
              rw [h8]
              by_cases ha : 8 * (i1 / 8) ≤ j ∧ j < i1
              · rw [if_pos ha, if_neg (by omega), if_pos ⟨Nat.zero_le _, ha.2⟩]
              · rw [if_neg ha]
                by_cases hb : j < 8 * (i1 / 8)
                · rw [if_pos hb, if_pos ⟨Nat.zero_le _, by omega⟩, Nat.sub_zero]
                · rw [if_neg hb, if_neg (by omega), add_zero]
            · rw [if_neg hi0]
              unfold addSamples
              by_cases ha : i0 ≤ j ∧ j < i1
              · rw [if_pos ha, if_pos ha]
              · rw [if_neg ha, if_neg ha, add_zero]
          show _ = _
          refine (hmix _).trans ?_
          congr 1
          by_cases hw : startIndex s.sr s.time e ≤ j ∧ j < endIndex s.sr s.time (s.time + s.sd * size) size e
          · rw [if_pos hw, if_pos hw, blockFadeOut_eq ease he1 hsd hss hb _ c j hw.1 hw.2 hj, blockFadeIn_eq ease hsd hss hb _ c j hw.1 hw.2 hj]
            have := congrFun (x2 (j - startIndex s.sr s.time e) (by omega)) c
            have hb' : (X.process g e.unit (endIndex s.sr s.time (s.time + s.sd * size) size e - startIndex s.sr s.time e) inp a.2).2 c
              (j - startIndex s.sr s.time e) = bout tick (e.map beh).unit (j - startIndex s.sr s.time e) c := this
            rw [hb']
            unfold gain; ring
          · rw [if_neg hw, if_neg hw]
      · rw [if_neg hlt]
        refine ⟨?_, ?_⟩
        · rw [show endIndex s.sr s.time (s.time + s.sd * size) size e - startIndex s.sr s.time e = 0 by omega]; rfl
        · intro j hj c
          rw [w2 j hj c, if_neg (by omega), add_zero])
  obtain ⟨k1, k2, k3, k4, k5⟩ := key
  have e0 : (if s.replay = true then s else { s with past := [] }).time = s.time := by split <;> rfl
  have e1 : (if s.replay = true then s else { s with past := [] }).sd = s.sd := by split <;> rfl
  unfold Sq.process
  simp only [e0, e1]

  rw [k1, k3] at k4 k5 ⊢
  rw [k2] at k4 ⊢
  exact ⟨k4, k5⟩

end Fundsp.Seq
