import Verif.Net.BlockProps

/-! # C13: crossfading a node -/

namespace Fundsp.Net
variable {U : Type}

/-- What happens to a node: it is ticked, processed, or an edit (`crossfade`, `fade_in`) reaches it. -/
inductive NodeEv (U : Type)
  | tick (x : List ℝ)
  | block (size : Nat) (x old tmp : CBuf ℝ)
  | edit (d : NodeEdit U ℝ)

noncomputable def Eng.ev (S : Units U ℝ) (P : Proc U ℝ) (sr : ℝ) (outs : Nat) (e : Eng U ℝ) : NodeEv U → Eng U ℝ
  | .tick x => (e.tick S sr x).1
  | .block size x old tmp => (e.process S P sr outs size x old tmp).1
  | .edit d => e.enqueue S d

/-- Edits carry a unit and have a positive fade time. -/
def EvOK (sr : ℝ) : NodeEv U → Prop
  | .edit d => d.unit.isSome ∧ 0 < d.time * sr
  | _ => True

/-- Invariant of nodes. -/
structure FadeInv (sr : ℝ) (e : Eng U ℝ) : Prop where
  next : e.next.unit.isSome → 0 ≤ e.phase ∧ e.phase < 1 ∧ 0 < e.next.time * sr
  latest : e.latest.unit.isSome → e.next.unit.isSome ∧ 0 < e.latest.time * sr

section
variable {S : Units U ℝ} (hA : S.toArith = realArith)
include hA

theorem fadeInv_nextPhase {sr : ℝ} {e : Eng U ℝ} (hl : e.latest.unit.isSome → 0 < e.latest.time * sr) (hn : e.next.unit.isSome) :
    FadeInv sr (e.nextPhase S) := by
  unfold Eng.nextPhase
  obtain ⟨u, hu⟩ := Option.isSome_iff_exists.1 hn
  rw [hu]
  simp only
  refine ⟨fun h => ?_, fun h => by cases h⟩
  rw [hA]
  exact ⟨le_refl (0 : ℝ), zero_lt_one, hl h⟩

/-- The branch of `Vertex::process` with a crossfade, over the reals. -/
theorem process_fade (P : Proc U ℝ) (sr : ℝ) (outs : Nat) (e : Eng U ℝ) {nx : U} (hn : e.next.unit = some nx) (size : Nat) (x old tmp : CBuf ℝ) :
    (e.process S P sr outs size x old tmp).1 =
      (let e' : Eng U ℝ := { e with unit := (P e.unit size x old).1, next := { e.next with unit := some (P nx size x tmp).1 }, phase := e.phase + (min size ⌊(1 - e.phase) * e.next.time * sr⌋₊ : ℕ) / (e.next.time * sr) }
       if ⌊(1 - e.phase) * e.next.time * sr⌋₊ ≤ size then e'.nextPhase S else e') ∧
    ∀ c k, c < outs → k < size → (e.process S P sr outs size x old tmp).2 c k =
      if k < ⌊(1 - e.phase) * e.next.time * sr⌋₊ then
        (P e.unit size x old).2 c k * realArith.fadeAt e.next.fade (1 - (e.phase + k / (e.next.time * sr)))
          + (P nx size x tmp).2 c k * realArith.fadeAt e.next.fade (e.phase + k / (e.next.time * sr))
      else (P nx size x tmp).2 c k := by
  have ge1 : realArith.one = (1 : ℝ) := rfl
  have ge2 : ∀ a b : ℝ, realArith.mul a b = a * b := fun _ _ => rfl
  have ge3 : ∀ a b : ℝ, realArith.sub a b = a - b := fun _ _ => rfl
  have ge4 : ∀ a b : ℝ, realArith.div a b = a / b := fun _ _ => rfl
  have ge5 : ∀ a b : ℝ, realArith.add a b = a + b := fun _ _ => rfl
  have ge6 : ∀ a : ℝ, realArith.toNat a = ⌊a⌋₊ := fun _ => rfl
  have ge7 : ∀ a : ℕ, realArith.ofNat a = (a : ℝ) := fun _ => rfl
  have hfs : ∀ k, fadeSeq realArith e.phase (1 / (e.next.time * sr)) k = e.phase + k / (e.next.time * sr) := by
    intro k; rw [fadeSeq_real]; ring
  unfold Eng.process
  simp only [hn, hA, ge1, ge2, ge3, ge4, ge5, ge6, ge7, hfs]
  refine ⟨trivial, fun c k hc hk => ?_⟩
  by_cases h : k < ⌊(1 - e.phase) * e.next.time * sr⌋₊
  · have h' : k < min size ⌊(1 - e.phase) * e.next.time * sr⌋₊ := by omega
    rw [if_pos ⟨hc, h'⟩, if_pos ⟨hc, h'⟩, if_pos h]
  · have h' : ¬ (c < outs ∧ k < min size ⌊(1 - e.phase) * e.next.time * sr⌋₊) := by omega
    rw [if_neg h', if_pos ⟨hc, hk⟩, if_neg h]

theorem fadeInv_ev (P : Proc U ℝ) {sr : ℝ} (outs : Nat) {e : Eng U ℝ} (h : FadeInv sr e) (v : NodeEv U) (hv : EvOK sr v) :
    FadeInv sr (e.ev S P sr outs v) := by
  cases v with
  | tick x =>
    show FadeInv sr (e.tick S sr x).1
    cases hn : e.next.unit with
    | none =>
      rw [Eng.tick_plain S sr e hn]
      exact ⟨fun c => h.next c, fun c => h.latest c⟩
    | some nx =>
      rw [tick_fade hA sr e hn]
      obtain ⟨a, b, c⟩ := h.next (by rw [hn]; rfl)
      simp only
      split
      · exact fadeInv_nextPhase hA (fun hl => (h.latest hl).2) rfl
      · rename_i hlt
        refine ⟨fun _ => ⟨?_, not_le.1 hlt, c⟩, fun hl => ⟨rfl, (h.latest hl).2⟩⟩
        have := div_pos one_pos c
        show 0 ≤ e.phase + 1 / (e.next.time * sr)
        linarith
  | block size x old tmp =>
    show FadeInv sr (e.process S P sr outs size x old tmp).1
    cases hn : e.next.unit with
    | none =>
      have : (e.process S P sr outs size x old tmp).1 = { e with unit := (P e.unit size x old).1 } := by simp only [Eng.process, hn]
      rw [this]
      exact ⟨fun c => h.next c, fun c => h.latest c⟩
    | some nx =>
      rw [(process_fade hA P sr outs e hn size x old tmp).1]
      obtain ⟨a, b, c⟩ := h.next (by rw [hn]; rfl)
      simp only
      split
      · exact fadeInv_nextPhase hA (fun hl => (h.latest hl).2) rfl
      · rename_i hlt
        refine ⟨fun _ => ⟨?_, ?_, c⟩, fun hl => ⟨rfl, (h.latest hl).2⟩⟩
        · show 0 ≤ e.phase + _
          positivity
        · show e.phase + _ < 1
          have h1 := Nat.floor_le (show 0 ≤ (1 - e.phase) * e.next.time * sr by rw [mul_assoc]; exact mul_nonneg (by linarith) c.le)
          have h2 : (size : ℝ) < (⌊(1 - e.phase) * e.next.time * sr⌋₊ : ℝ) := by exact_mod_cast not_le.1 hlt
          rw [Nat.min_eq_left (by omega), ← lt_sub_iff_add_lt', div_lt_iff₀ c]
          rw [mul_assoc] at h1
          rw [mul_assoc] at h2
          linarith
  | edit d =>
    show FadeInv sr (e.enqueue S d)
    unfold Eng.enqueue
    split
    · rename_i hn
      exact ⟨fun _ => h.next hn, fun _ => ⟨hn, hv.2⟩⟩
    · rename_i hn
      refine ⟨fun _ => ⟨?_, ?_, hv.2⟩, fun hl => absurd (h.latest hl).1 hn⟩
      · rw [hA]; exact le_refl (0 : ℝ)
      · rw [hA]; exact zero_lt_one

theorem fadeInv_evs (P : Proc U ℝ) {sr : ℝ} (outs : Nat) (vs : List (NodeEv U)) : ∀ {e : Eng U ℝ}, FadeInv sr e → (∀ v ∈ vs, EvOK sr v) →
    FadeInv sr (vs.foldl (fun e v => e.ev S P sr outs v) e) := by
  induction vs with
  | nil => intro e h _; exact h
  | cons v vs ih =>
    intro e h hv
    exact ih (fadeInv_ev hA P outs h v (hv v (by simp))) (fun w hw => hv w (by simp [hw]))

end

/-- Weights of a crossfade at position `t`. -/
structure Weights (f : Fade) (w1 w2 : ℝ) : Prop where
  first : 0 ≤ w1 ∧ w1 ≤ 1
  second : 0 ≤ w2 ∧ w2 ≤ 1
  smooth : f = .smooth → w1 + w2 = 1
  power : f = .power → |w1 ^ 2 + w2 ^ 2 - 1| ≤ 4 / 1000

theorem weights (f : Fade) {t : ℝ} (h0 : 0 ≤ t) (h1 : t ≤ 1) : Weights f (realArith.fadeAt f (1 - t)) (realArith.fadeAt f t) := by
  have ht : t ∈ Set.Icc (0 : ℝ) 1 := ⟨h0, h1⟩
  have ht' : 1 - t ∈ Set.Icc (0 : ℝ) 1 := ⟨by linarith, by linarith⟩
  cases f with
  | power =>
    have := Math.C30_sine_ease.2.2.2
    refine ⟨(this _ ht').1, (this _ ht).1, (by intro h; cases h), fun _ => ?_⟩
    have := (this _ ht).2
    show |Math.sineEase (1 - t) ^ 2 + Math.sineEase t ^ 2 - 1| ≤ _
    rwa [add_comm (Math.sineEase (1 - t) ^ 2)]
  | smooth =>
    have := Math.C30_smooth5
    refine ⟨this.maps ht', this.maps ht, fun _ => ?_, (by intro h; cases h)⟩
    show Math.smooth5 (1 - t) + Math.smooth5 t = 1
    simp only [Math.smooth5]; ring

/-- A new node: `Vertex::new`, no crossfade. -/
def Eng.Fresh (e : Eng U ℝ) : Prop := e.next.unit = none ∧ e.latest.unit = none

theorem fadeInv_fresh {sr : ℝ} {e : Eng U ℝ} (h : e.Fresh) : FadeInv sr e :=
  ⟨fun c => (by rw [h.1] at c; cases c), fun c => (by rw [h.2] at c; cases c)⟩

/-- State of a node after a history. -/
noncomputable def after (S : Units U ℝ) (P : Proc U ℝ) (sr : ℝ) (outs : Nat) (e : Eng U ℝ) (vs : List (NodeEv U)) : Eng U ℝ :=
  vs.foldl (fun e v => e.ev S P sr outs v) e

/-- **C13** (ticks): at any time in the life of a node, a sample of its output is the output of its unit, or during a crossfade the
mixture of the outputs of the old and the new unit with weights in the unit interval, which sum to one for `Fade::Smooth`. -/
theorem C13_mix_tick {S : Units U ℝ} (hA : S.toArith = realArith) (P : Proc U ℝ) (sr : ℝ) (outs : Nat) (e0 : Eng U ℝ) (h0 : e0.Fresh)
    (vs : List (NodeEv U)) (hv : ∀ v ∈ vs, EvOK sr v) (x : List ℝ) :
    let e := after S P sr outs e0 vs
    match e.next.unit with
    | none => (e.tick S sr x).2 = (S.utick e.unit x).2
    | some nx => ∃ w1 w2, Weights e.next.fade w1 w2 ∧
        (e.tick S sr x).2 = List.zipWith (fun a b => a * w1 + b * w2) (S.utick e.unit x).2 (S.utick nx x).2 := by
  intro e
  have hi : FadeInv sr e := fadeInv_evs hA P outs vs (fadeInv_fresh h0) hv
  cases hn : e.next.unit with
  | none => simp only; rw [Eng.tick_plain S sr e hn]
  | some nx =>
    obtain ⟨a, b, _⟩ := hi.next (by rw [hn]; rfl)
    exact ⟨_, _, weights e.next.fade a b.le, by rw [tick_fade hA sr e hn]⟩

/-- **C13** (blocks): in a block, every sample is a mixture as in `C13_mix_tick`, with the same weights in all channels, or the output of the new
unit alone. -/
theorem C13_mix_block {S : Units U ℝ} (hA : S.toArith = realArith) (P : Proc U ℝ) (sr : ℝ) (outs : Nat) (e0 : Eng U ℝ) (h0 : e0.Fresh)
    (vs : List (NodeEv U)) (hv : ∀ v ∈ vs, EvOK sr v) (size : Nat) (x old tmp : CBuf ℝ) (k : Nat) (hk : k < size) :
    let e := after S P sr outs e0 vs
    match e.next.unit with
    | none => ∀ c, c < outs → (e.process S P sr outs size x old tmp).2 c k = (P e.unit size x old).2 c k
    | some nx => (∃ w1 w2, Weights e.next.fade w1 w2 ∧ ∀ c, c < outs →
        (e.process S P sr outs size x old tmp).2 c k = (P e.unit size x old).2 c k * w1 + (P nx size x tmp).2 c k * w2) ∨
        ∀ c, c < outs → (e.process S P sr outs size x old tmp).2 c k = (P nx size x tmp).2 c k := by
  intro e
  have hi : FadeInv sr e := fadeInv_evs hA P outs vs (fadeInv_fresh h0) hv
  cases hn : e.next.unit with
  | none => intro c hc; simp only [Eng.process, hn]
  | some nx =>
    obtain ⟨a, b, hT⟩ := hi.next (by rw [hn]; rfl)
    have hp := (process_fade hA P sr outs e hn size x old tmp).2
    by_cases hl : k < ⌊(1 - e.phase) * e.next.time * sr⌋₊
    · left
      refine ⟨_, _, weights e.next.fade (t := e.phase + k / (e.next.time * sr)) (by positivity) ?_, fun c hc => ?_⟩
      · have h1 := Nat.lt_of_lt_of_le hl (le_refl _)
        have h2 : (k : ℝ) < (1 - e.phase) * e.next.time * sr := by
          refine lt_of_lt_of_le (Nat.cast_lt.2 hl) (Nat.floor_le ?_)
          rw [mul_assoc]; exact mul_nonneg (by linarith) hT.le
        rw [← le_sub_iff_add_le', div_le_iff₀ hT]
        rw [mul_assoc] at h2
        exact h2.le
      · rw [hp c k hc hk, if_pos hl]
    · right
      intro c hc
      rw [hp c k hc hk, if_neg hl]

/-- **C13** (end of the crossfade): a crossfade with no further edits ends after its fade time, rounded up to whole samples; from then on
exactly the output of the new unit is heard, which has been running since the start of the crossfade. -/
theorem C13_complete {S : Units U ℝ} (hA : S.toArith = realArith) (sr : ℝ) (e : Eng U ℝ) (h0 : e.Fresh) (d : NodeEdit U ℝ) (nx : U)
    (hd : d.unit = some nx) (hT : 0 < d.time * sr) (X : Nat → List ℝ) (k : Nat) (hk : ⌈d.time * sr⌉₊ ≤ k) :
    engOut S sr (e.enqueue S d) X k = uOut S nx X k ∧ (engSt S sr (e.enqueue S d) X k).unit = uSt S nx X k ∧
    (engSt S sr (e.enqueue S d) X k).Fresh := by
  have he : e.enqueue S d = { e with next := d, phase := 0 } := by
    simp only [Eng.enqueue, h0.1, Option.isSome_none, Bool.false_eq_true, if_false, hA]; rfl
  have hp : ∀ j : ℕ, 1 ≤ ({ e with next := d, phase := 0 } : Eng U ℝ).phase + (j : ℝ) / (d.time * sr) ↔ ⌈d.time * sr⌉₊ ≤ j := by
    intro j
    show 1 ≤ 0 + (j : ℝ) / (d.time * sr) ↔ _
    rw [zero_add, le_div_iff₀ hT, one_mul, Nat.ceil_le]
  have h1 : 1 ≤ ⌈d.time * sr⌉₊ := Nat.one_le_ceil_iff.2 hT
  rw [he]
  refine ⟨?_, ?_, ?_⟩
  · exact (engOut_fade hA sr { e with next := d, phase := 0 } hd h0.2 hp X k).2 h1 hk
  · rw [(engSt_fade hA sr { e with next := d, phase := 0 } hd h0.2 hp X k).2 h1 hk]
  · rw [(engSt_fade hA sr { e with next := d, phase := 0 } hd h0.2 hp X k).2 h1 hk]; exact ⟨rfl, rfl⟩

/-! ## Which unit is heard -/

/-- Labels on units that do not change while they run. -/
structure Label (S : Units U ℝ) (P : Proc U ℝ) (lab : U → ℕ) : Prop where
  tick : ∀ u x, lab (S.utick u x).1 = lab u
  proc : ∀ u size x old, lab (P u size x old).1 = lab u

/-- Labels of the units of a node. -/
def labels (lab : U → ℕ) (e : Eng U ℝ) : ℕ × Option ℕ × Option ℕ := (lab e.unit, e.next.unit.map lab, e.latest.unit.map lab)

/-- Ticks and blocks. -/
def Quiet : NodeEv U → Prop
  | .edit _ => False
  | _ => True

def samples : NodeEv U → ℕ
  | .tick _ => 1
  | .block size _ _ _ => size
  | .edit _ => 0

theorem labels_nextPhase {S : Units U ℝ} (lab : U → ℕ) (e : Eng U ℝ) {nx : U} (hn : e.next.unit = some nx) :
    labels lab (e.nextPhase S) = (lab nx, e.latest.unit.map lab, none) ∧ (e.nextPhase S).next.time = e.latest.time ∧
    (e.nextPhase S).phase = S.zero := by
  unfold Eng.nextPhase
  rw [hn]
  exact ⟨rfl, rfl, rfl⟩

/-- What a tick or block does to a node in a crossfade. -/
theorem quiet_step {S : Units U ℝ} (hA : S.toArith = realArith) {P : Proc U ℝ} {lab : U → ℕ} (hL : Label S P lab) (sr : ℝ) (outs : Nat)
    (e : Eng U ℝ) {nx : U} (hn : e.next.unit = some nx) (hi : FadeInv sr e) (v : NodeEv U) (hq : Quiet v) :
    (labels lab (e.ev S P sr outs v) = labels lab e ∧ (e.ev S P sr outs v).next.time = e.next.time ∧
      (e.ev S P sr outs v).latest.time = e.latest.time ∧
      (1 - (e.ev S P sr outs v).phase) * (e.next.time * sr) = (1 - e.phase) * (e.next.time * sr) - samples v ∧
      (samples v : ℝ) < (1 - e.phase) * (e.next.time * sr)) ∨
    (labels lab (e.ev S P sr outs v) = (lab nx, e.latest.unit.map lab, none) ∧ (e.ev S P sr outs v).next.time = e.latest.time ∧
      (e.ev S P sr outs v).phase = 0) := by
  obtain ⟨a, b, hT⟩ := hi.next (by rw [hn]; rfl)
  have hz : S.zero = (0 : ℝ) := by rw [hA]; rfl
  cases v with
  | edit d => exact absurd hq id
  | tick x =>
    simp only [Eng.ev, samples]
    rw [tick_fade hA sr e hn]
    simp only
    split
    · right
      obtain ⟨p1, p2, p3⟩ := labels_nextPhase (S := S) lab { e with unit := (S.utick e.unit x).1, next := { e.next with unit := some (S.utick nx x).1 }, phase := e.phase + 1 / (e.next.time * sr) } (nx := (S.utick nx x).1) rfl
      rw [p1, p2, p3, hz, hL.tick]
      exact ⟨rfl, rfl, rfl⟩
    · rename_i hlt
      left
      have h1 := div_mul_cancel₀ (1 : ℝ) hT.ne'
      have h2 : (1 - (e.phase + 1 / (e.next.time * sr))) * (e.next.time * sr) = (1 - e.phase) * (e.next.time * sr) - 1 := by
        linear_combination (-1 : ℝ) * h1
      refine ⟨?_, rfl, rfl, by push_cast; exact h2, ?_⟩
      · simp only [labels, hL.tick, hn, Option.map_some]
      · have : 0 < (1 - (e.phase + 1 / (e.next.time * sr))) * (e.next.time * sr) := mul_pos (by linarith [not_le.1 hlt]) hT
        push_cast; linarith
  | block size x old tmp =>
    simp only [Eng.ev, samples]
    rw [(process_fade hA P sr outs e hn size x old tmp).1]
    simp only
    split
    · right
      obtain ⟨p1, p2, p3⟩ := labels_nextPhase (S := S) lab { e with unit := (P e.unit size x old).1, next := { e.next with unit := some (P nx size x tmp).1 }, phase := e.phase + (min size ⌊(1 - e.phase) * e.next.time * sr⌋₊ : ℕ) / (e.next.time * sr) } (nx := (P nx size x tmp).1) rfl
      rw [p1, p2, p3, hz, hL.proc]
      exact ⟨rfl, rfl, rfl⟩
    · rename_i hlt
      left
      rw [Nat.min_eq_left (by omega)]
      have h1 := div_mul_cancel₀ (size : ℝ) hT.ne'
      have h2 : (1 - (e.phase + size / (e.next.time * sr))) * (e.next.time * sr) = (1 - e.phase) * (e.next.time * sr) - size := by
        linear_combination (-1 : ℝ) * h1
      refine ⟨?_, rfl, rfl, h2, ?_⟩
      · simp only [labels, hL.proc, hn, Option.map_some]
      · have h3 := Nat.floor_le (show 0 ≤ (1 - e.phase) * e.next.time * sr by rw [mul_assoc]; exact mul_nonneg (by linarith) hT.le)
        have h4 : (size : ℝ) < (⌊(1 - e.phase) * e.next.time * sr⌋₊ : ℝ) := by exact_mod_cast not_le.1 hlt
        rw [mul_assoc] at h3 h4
        linarith

theorem quiet_step_plain {S : Units U ℝ} {P : Proc U ℝ} {lab : U → ℕ} (hL : Label S P lab) (sr : ℝ) (outs : Nat)
    (e : Eng U ℝ) (hn : e.next.unit = none) (v : NodeEv U) (hq : Quiet v) : labels lab (e.ev S P sr outs v) = labels lab e := by
  cases v with
  | edit d => exact absurd hq id
  | tick x => simp only [Eng.ev, Eng.tick_plain S sr e hn, labels, hL.tick]
  | block size x old tmp => simp only [Eng.ev, Eng.process, hn, labels, hL.proc]

theorem quiet_ok {sr : ℝ} {v : NodeEv U} (h : Quiet v) : EvOK sr v := by
  cases v with
  | edit d => exact absurd h id
  | tick x => trivial
  | block => trivial

theorem labels_fresh {lab : U → ℕ} {e : Eng U ℝ} {a : ℕ} (h : labels lab e = (a, none, none)) : e.Fresh ∧ lab e.unit = a := by
  simp only [labels, Prod.mk.injEq, Option.map_eq_none_iff] at h
  exact ⟨⟨h.2.1, h.2.2⟩, h.1⟩

theorem fresh_quiet {S : Units U ℝ} {P : Proc U ℝ} {lab : U → ℕ} (hL : Label S P lab) (sr : ℝ) (outs : Nat) (vs : List (NodeEv U)) :
    ∀ (e : Eng U ℝ), e.Fresh → (∀ v ∈ vs, Quiet v) → labels lab (after S P sr outs e vs) = labels lab e := by
  induction vs with
  | nil => intro e _ _; rfl
  | cons v vs ih =>
    intro e h hq
    have h1 := quiet_step_plain hL sr outs e h.1 v (hq v (by simp))
    have h2 : (e.ev S P sr outs v).Fresh := by
      have : labels lab (e.ev S P sr outs v) = (lab e.unit, none, none) := by rw [h1]; simp [labels, h.1, h.2]
      exact (labels_fresh this).1
    exact (ih _ h2 (fun w hw => hq w (by simp [hw]))).trans h1

/-- Enough ticks and blocks end the current crossfade. -/
theorem quiet_finish {S : Units U ℝ} (hA : S.toArith = realArith) {P : Proc U ℝ} {lab : U → ℕ} (hL : Label S P lab) (sr : ℝ) (outs : Nat)
    (vs : List (NodeEv U)) : ∀ (e : Eng U ℝ) (nx : U), e.next.unit = some nx → FadeInv sr e → (∀ v ∈ vs, Quiet v) →
    (1 - e.phase) * (e.next.time * sr) ≤ ((vs.map samples).sum : ℕ) →
    ∃ a b, vs = a ++ b ∧ labels lab (after S P sr outs e a) = (lab nx, e.latest.unit.map lab, none) ∧
      (after S P sr outs e a).next.time = e.latest.time ∧ (after S P sr outs e a).phase = 0 := by
  induction vs with
  | nil =>
    intro e nx hn hi _ hs
    obtain ⟨_, b, hT⟩ := hi.next (by rw [hn]; rfl)
    have : 0 < (1 - e.phase) * (e.next.time * sr) := mul_pos (by linarith) hT
    simp at hs; linarith
  | cons v vs ih =>
    intro e nx hn hi hq hs
    rcases quiet_step hA hL sr outs e hn hi v (hq v (by simp)) with ⟨h1, h2, h3, h4, h5⟩ | ⟨h1, h2, h3⟩
    · have hl : ∃ nx', (e.ev S P sr outs v).next.unit = some nx' ∧ lab nx' = lab nx := by
        have := congrArg (fun x => x.2.1) h1
        simp only [labels, hn, Option.map_some, Option.map_eq_some_iff] at this
        exact this
      have hl2 : (e.ev S P sr outs v).latest.unit.map lab = e.latest.unit.map lab := congrArg (fun x => x.2.2) h1
      obtain ⟨nx', hn', hlab⟩ := hl
      obtain ⟨a, b, hab, r1, r2, r3⟩ := ih (e.ev S P sr outs v) nx' hn' (fadeInv_ev hA P outs hi v (quiet_ok (hq v (by simp))))
        (fun w hw => hq w (by simp [hw])) (by
          rw [h2, h4]
          simp only [List.map_cons, List.sum_cons] at hs
          rw [Nat.cast_add] at hs
          linarith)
      refine ⟨v :: a, b, by rw [hab]; rfl, ?_, ?_, ?_⟩
      · rw [hlab, hl2] at r1; exact r1
      · rw [h3] at r2; exact r2
      · exact r3
    · exact ⟨[v], vs, rfl, h1, h2, h3⟩

/-- All crossfades are at most `T` samples long. -/
def FadesBelow (sr T : ℝ) (e : Eng U ℝ) : Prop :=
  (e.next.unit.isSome → e.next.time * sr ≤ T) ∧ (e.latest.unit.isSome → e.latest.time * sr ≤ T)

theorem fadesBelow_ev {S : Units U ℝ} (hA : S.toArith = realArith) (P : Proc U ℝ) {sr T : ℝ} (outs : Nat) {e : Eng U ℝ} (h : FadesBelow sr T e)
    (v : NodeEv U) (hv : ∀ d, v = .edit d → d.time * sr ≤ T) : FadesBelow sr T (e.ev S P sr outs v) := by
  have hnp : ∀ f : Eng U ℝ, f.next.unit.isSome → f.latest = e.latest → FadesBelow sr T (f.nextPhase S) := by
    intro f hf hl
    obtain ⟨u, hu⟩ := Option.isSome_iff_exists.1 hf
    unfold Eng.nextPhase
    rw [hu]
    simp only
    exact ⟨fun c => by rw [hl] at c ⊢; exact h.2 c, fun c => by cases c⟩
  cases v with
  | edit d =>
    show FadesBelow sr T (e.enqueue S d)
    unfold Eng.enqueue
    split
    · exact ⟨h.1, fun _ => hv d rfl⟩
    · exact ⟨fun _ => hv d rfl, h.2⟩
  | tick x =>
    show FadesBelow sr T (e.tick S sr x).1
    cases hn : e.next.unit with
    | none => rw [Eng.tick_plain S sr e hn]; exact h
    | some nx =>
      rw [tick_fade hA sr e hn]
      simp only
      split
      · exact hnp _ rfl rfl
      · exact ⟨fun _ => h.1 (by rw [hn]; rfl), h.2⟩
  | block size x old tmp =>
    show FadesBelow sr T (e.process S P sr outs size x old tmp).1
    cases hn : e.next.unit with
    | none =>
      have : (e.process S P sr outs size x old tmp).1 = { e with unit := (P e.unit size x old).1 } := by simp only [Eng.process, hn]
      rw [this]; exact h
    | some nx =>
      rw [(process_fade hA P sr outs e hn size x old tmp).1]
      simp only
      split
      · exact hnp _ rfl rfl
      · exact ⟨fun _ => h.1 (by rw [hn]; rfl), h.2⟩

theorem fadesBelow_evs {S : Units U ℝ} (hA : S.toArith = realArith) (P : Proc U ℝ) {sr T : ℝ} (outs : Nat) (vs : List (NodeEv U)) :
    ∀ {e : Eng U ℝ}, FadesBelow sr T e → (∀ d, NodeEv.edit d ∈ vs → d.time * sr ≤ T) → FadesBelow sr T (after S P sr outs e vs) := by
  induction vs with
  | nil => intro e h _; exact h
  | cons v vs ih =>
    intro e h hv
    exact ih (fadesBelow_ev hA P outs h v (fun d hd => hv d (by simp [hd]))) (fun d hd => hv d (by simp [hd]))

theorem after_append (S : Units U ℝ) (P : Proc U ℝ) (sr : ℝ) (outs : Nat) (e : Eng U ℝ) (a b : List (NodeEv U)) :
    after S P sr outs e (a ++ b) = after S P sr outs (after S P sr outs e a) b := by simp [after]

/-- **C13** (the last edit wins): after any history of ticks, blocks and edits whose crossfades last at most `T` samples, an edit `d` that is
not followed by another one ends up as the only unit that is running, as soon as twice `T` samples (in two runs of at least `T`) have passed. -/
theorem C13_last_edit_wins {S : Units U ℝ} (hA : S.toArith = realArith) {P : Proc U ℝ} {lab : U → ℕ} (hL : Label S P lab) (sr : ℝ) (outs : Nat)
    (e0 : Eng U ℝ) (h0 : e0.Fresh) (T : ℝ) (vs : List (NodeEv U)) (d : NodeEdit U ℝ) (u : U) (hd : d.unit = some u)
    (hv : ∀ v ∈ vs ++ [.edit d], EvOK sr v) (hT : ∀ d', NodeEv.edit d' ∈ vs ++ [.edit d] → d'.time * sr ≤ T)
    (q1 q2 : List (NodeEv U)) (hq1 : ∀ v ∈ q1, Quiet v) (hq2 : ∀ v ∈ q2, Quiet v)
    (hs1 : T ≤ ((q1.map samples).sum : ℕ)) (hs2 : T ≤ ((q2.map samples).sum : ℕ)) :
    (after S P sr outs e0 (vs ++ [.edit d] ++ q1 ++ q2)).Fresh ∧ lab (after S P sr outs e0 (vs ++ [.edit d] ++ q1 ++ q2)).unit = lab u := by
  set e1 := after S P sr outs e0 vs with he1
  have hi1 : FadeInv sr e1 := fadeInv_evs hA P outs vs (fadeInv_fresh h0) (fun v hm => hv v (by simp [hm]))
  have hb1 : FadesBelow sr T e1 := fadesBelow_evs hA P outs vs
    ⟨fun c => (by rw [h0.1] at c; cases c), fun c => (by rw [h0.2] at c; cases c)⟩ (fun d' hd' => hT d' (by simp [hd']))
  set e2 := e1.enqueue S d with he2
  have hi2 : FadeInv sr e2 := fadeInv_ev hA P outs hi1 (.edit d) (hv _ (by simp))
  have hb2 : FadesBelow sr T e2 := fadesBelow_ev hA P outs hb1 (.edit d) (fun d' hd' => hT d' (by simp [hd']))
  have hfin : after S P sr outs e0 (vs ++ [.edit d] ++ q1 ++ q2) = after S P sr outs (after S P sr outs e2 q1) q2 := by
    rw [after_append, after_append, after_append]; rfl
  rw [hfin]
  -- the unit waited for
  have hcase : (e2.next.unit = some u ∧ e2.latest.unit = none) ∨ (e2.next.unit.isSome ∧ e2.latest = d) := by
    rw [he2]
    unfold Eng.enqueue
    split
    · rename_i hn; exact Or.inr ⟨hn, rfl⟩
    · rename_i hn
      refine Or.inl ⟨hd, ?_⟩
      cases hl : e1.latest.unit with
      | none => rfl
      | some w => exact absurd (hi1.latest (by rw [hl]; rfl)).1 hn
  have hleft : ∀ e : Eng U ℝ, e.next.unit.isSome → FadeInv sr e → FadesBelow sr T e → (1 - e.phase) * (e.next.time * sr) ≤ T := by
    intro e hn hi hb
    obtain ⟨a, b, c⟩ := hi.next hn
    have := hb.1 hn
    nlinarith
  have hfresh : ∀ (e : Eng U ℝ) (l : List (NodeEv U)), (∀ v ∈ l, Quiet v) → labels lab e = (lab u, none, none) →
      labels lab (after S P sr outs e l) = (lab u, none, none) := by
    intro e l hl he
    rw [fresh_quiet hL sr outs l e (labels_fresh he).1 hl, he]
  suffices h : labels lab (after S P sr outs (after S P sr outs e2 q1) q2) = (lab u, none, none) from labels_fresh h
  rcases hcase with ⟨hn, hl⟩ | ⟨hn, hl⟩
  · obtain ⟨a, b, hab, r1, _, _⟩ := quiet_finish hA hL sr outs q1 e2 u hn hi2 hq1 (le_trans (hleft e2 (by rw [hn]; rfl) hi2 hb2) hs1)
    rw [hl] at r1
    apply hfresh _ _ hq2
    rw [hab, after_append]
    exact hfresh _ _ (fun v hv => hq1 v (by rw [hab]; simp [hv])) r1
  · obtain ⟨nx, hnx⟩ := Option.isSome_iff_exists.1 hn
    obtain ⟨a, b, hab, r1, r2, r3⟩ := quiet_finish hA hL sr outs q1 e2 nx hnx hi2 hq1 (le_trans (hleft e2 hn hi2 hb2) hs1)
    set e3 := after S P sr outs e2 a with he3
    have hi3 : FadeInv sr e3 := fadeInv_evs hA P outs a hi2 (fun v hv => quiet_ok (hq1 v (by rw [hab]; simp [hv])))
    have hb3 : FadesBelow sr T e3 := fadesBelow_evs hA P outs a hb2 (fun d' hd' => absurd (hq1 (.edit d') (by rw [hab]; exact List.mem_append_left _ hd')) id)
    rw [hl] at r1
    simp only [hd, Option.map_some] at r1
    have hn3 : ∃ u', e3.next.unit = some u' ∧ lab u' = lab u := by
      have := congrArg (fun x => x.2.1) r1
      simpa [labels] using this
    have hl3 : e3.latest.unit = none := by
      have := congrArg (fun x => x.2.2) r1
      simpa [labels] using this
    obtain ⟨u', hu', hlu⟩ := hn3
    have hqb : ∀ v ∈ b ++ q2, Quiet v := by
      intro v hv
      rcases List.mem_append.1 hv with h | h
      · exact hq1 v (by rw [hab]; simp [h])
      · exact hq2 v h
    obtain ⟨a', b', hab', s1, _, _⟩ := quiet_finish hA hL sr outs (b ++ q2) e3 u' hu' hi3 hqb (by
      refine le_trans (hleft e3 (by rw [hu']; rfl) hi3 hb3) (le_trans hs2 ?_)
      rw [List.map_append, List.sum_append]
      exact_mod_cast Nat.le_add_left _ _)
    rw [hl3, hlu] at s1
    have : after S P sr outs (after S P sr outs e2 q1) q2 = after S P sr outs (after S P sr outs e3 a') b' := by
      rw [← after_append S P sr outs e3 a' b', ← hab', he3, ← after_append, ← after_append, hab, List.append_assoc]
    rw [this]
    exact hfresh _ _ (fun v hv => hqb v (by rw [hab']; simp [hv])) s1

/-- Labels of the edits of a history, in order. -/
def editLabels (lab : U → ℕ) : List (NodeEv U) → List ℕ
  | [] => []
  | .edit d :: vs => (d.unit.map lab).toList ++ editLabels lab vs
  | _ :: vs => editLabels lab vs

/-- Units of a node are in the order in which they arrived. -/
structure InOrder (lab : U → ℕ) (B : ℕ) (e : Eng U ℝ) : Prop where
  unit : lab e.unit ≤ B
  next : ∀ u, e.next.unit = some u → lab e.unit < lab u ∧ lab u ≤ B
  latest : ∀ u, e.latest.unit = some u → ∃ n, e.next.unit = some n ∧ lab n < lab u ∧ lab u ≤ B

theorem InOrder.ofLabels {lab : U → ℕ} {B : ℕ} {e f : Eng U ℝ} (h : InOrder lab B e) (hl : labels lab f = labels lab e) : InOrder lab B f := by
  simp only [labels, Prod.mk.injEq] at hl
  obtain ⟨h1, h2, h3⟩ := hl
  refine ⟨h1 ▸ h.unit, ?_, ?_⟩
  · intro u hu
    rw [hu, Option.map_some, eq_comm, Option.map_eq_some_iff] at h2
    obtain ⟨u', hu', he⟩ := h2
    have := h.next u' hu'
    rw [h1, ← he]; exact this
  · intro u hu
    rw [hu, Option.map_some, eq_comm, Option.map_eq_some_iff] at h3
    obtain ⟨u', hu', he⟩ := h3
    obtain ⟨n, hn, a, b⟩ := h.latest u' hu'
    rw [hn, Option.map_some, Option.map_eq_some_iff] at h2
    obtain ⟨n', hn', he'⟩ := h2
    exact ⟨n', hn', by rw [he', ← he]; exact a, by rw [← he]; exact b⟩

theorem inOrder_quiet {S : Units U ℝ} (hA : S.toArith = realArith) {P : Proc U ℝ} {lab : U → ℕ} (hL : Label S P lab) (sr : ℝ) (outs : Nat)
    {B : ℕ} {e : Eng U ℝ} (h : InOrder lab B e) (hi : FadeInv sr e) (v : NodeEv U) (hq : Quiet v) :
    InOrder lab B (e.ev S P sr outs v) ∧ lab e.unit ≤ lab (e.ev S P sr outs v).unit := by
  cases hn : e.next.unit with
  | none =>
    have := quiet_step_plain hL sr outs e hn v hq
    exact ⟨h.ofLabels this, (congrArg Prod.fst this).ge⟩
  | some nx =>
    rcases quiet_step hA hL sr outs e hn hi v hq with ⟨h1, _⟩ | ⟨h1, _, _⟩
    · exact ⟨h.ofLabels h1, (congrArg Prod.fst h1).ge⟩
    · obtain ⟨a, b⟩ := h.next nx hn
      simp only [labels, Prod.mk.injEq] at h1
      obtain ⟨h1, h2, h3⟩ := h1
      refine ⟨⟨h1 ▸ b, ?_, ?_⟩, by rw [h1]; exact a.le⟩
      · intro u hu
        rw [hu, Option.map_some, eq_comm, Option.map_eq_some_iff] at h2
        obtain ⟨u', hu', he⟩ := h2
        obtain ⟨n, hn', c, d⟩ := h.latest u' hu'
        rw [hn] at hn'; cases hn'
        rw [h1, ← he]; exact ⟨c, d⟩
      · intro u hu
        rw [hu] at h3; cases h3

/-- **C13** (never back): if units are labelled in the order in which they are enqueued, then over any history of ticks, blocks and edits the
label of the running unit never decreases; a unit being faded in was enqueued after the one being faded out. -/
theorem C13_never_back {S : Units U ℝ} (hA : S.toArith = realArith) {P : Proc U ℝ} {lab : U → ℕ} (hL : Label S P lab) (sr : ℝ) (outs : Nat)
    (e0 : Eng U ℝ) (h0 : e0.Fresh) (vs ws : List (NodeEv U)) (hv : ∀ v ∈ vs ++ ws, EvOK sr v)
    (ho : (lab e0.unit :: editLabels lab (vs ++ ws)).Pairwise (· < ·)) :
    lab (after S P sr outs e0 vs).unit ≤ lab (after S P sr outs e0 (vs ++ ws)).unit ∧
    ∀ n, (after S P sr outs e0 (vs ++ ws)).next.unit = some n → lab (after S P sr outs e0 (vs ++ ws)).unit < lab n := by
  have main : ∀ (vs : List (NodeEv U)) (rest : List (NodeEv U)) (e : Eng U ℝ) (B : ℕ), InOrder lab B e → FadeInv sr e → (∀ v ∈ vs, EvOK sr v) →
      (B :: editLabels lab (vs ++ rest)).Pairwise (· < ·) → ∃ B', InOrder lab B' (after S P sr outs e vs) ∧ FadeInv sr (after S P sr outs e vs) ∧
        lab e.unit ≤ lab (after S P sr outs e vs).unit ∧ (B' :: editLabels lab rest).Pairwise (· < ·) := by
    intro vs rest
    induction vs with
    | nil => intro e B h hi _ ho; exact ⟨B, h, hi, le_refl _, ho⟩
    | cons v vs ih =>
      intro e B h hi hv ho
      have hi' := fadeInv_ev hA P outs hi v (hv v (by simp))
      have hq : Quiet v → ∃ B', InOrder lab B' (after S P sr outs e (v :: vs)) ∧ FadeInv sr (after S P sr outs e (v :: vs)) ∧
          lab e.unit ≤ lab (after S P sr outs e (v :: vs)).unit ∧ (B' :: editLabels lab rest).Pairwise (· < ·) := by
        intro hq
        obtain ⟨a, b⟩ := inOrder_quiet hA hL sr outs h hi v hq
        have ho' : (B :: editLabels lab (vs ++ rest)).Pairwise (· < ·) := by
          cases v with
          | edit d => exact absurd hq id
          | tick x => exact ho
          | block => exact ho
        obtain ⟨B', r1, r2, r3, r4⟩ := ih (e.ev S P sr outs v) B a hi' (fun w hw => hv w (by simp [hw])) ho'
        exact ⟨B', r1, r2, b.trans r3, r4⟩
      cases hve : v with
      | tick x => rw [← hve]; exact hq (by rw [hve]; trivial)
      | block => rw [← hve]; exact hq (by rw [hve]; trivial)
      | edit d =>
        subst hve
        obtain ⟨u, hu⟩ := Option.isSome_iff_exists.1 (hv (.edit d) (by simp)).1
        have ho2 : (B :: lab u :: editLabels lab (vs ++ rest)).Pairwise (· < ·) := by
          simpa [editLabels, hu] using ho
        have hBu : B < lab u := (List.pairwise_cons.1 ho2).1 _ (by simp)
        have ho' := (List.pairwise_cons.1 ho2).2
        have hin : InOrder lab (lab u) (e.enqueue S d) := by
          unfold Eng.enqueue
          split
          · rename_i hn
            obtain ⟨n, hn⟩ := Option.isSome_iff_exists.1 hn
            refine ⟨h.unit.trans hBu.le, fun w hw => ⟨(h.next w hw).1, (h.next w hw).2.trans hBu.le⟩, ?_⟩
            intro w hw
            rw [hu] at hw; cases hw
            exact ⟨n, hn, lt_of_le_of_lt (h.next n hn).2 hBu, le_refl _⟩
          · rename_i hn
            refine ⟨h.unit.trans hBu.le, ?_, ?_⟩
            · intro w hw
              rw [hu] at hw; cases hw
              exact ⟨lt_of_le_of_lt h.unit hBu, le_refl _⟩
            · intro w hw
              obtain ⟨n, hn', _⟩ := h.latest w hw
              rw [hn'] at hn; exact absurd rfl hn
        have hun : (e.enqueue S d).unit = e.unit := by unfold Eng.enqueue; split <;> rfl
        obtain ⟨B', r1, r2, r3, r4⟩ := ih (e.enqueue S d) (lab u) hin hi' (fun w hw => hv w (by simp [hw])) ho'
        exact ⟨B', r1, r2, by rw [← hun]; exact r3, r4⟩
  have hin0 : InOrder lab (lab e0.unit) e0 := ⟨le_refl _, fun u hu => (by rw [h0.1] at hu; cases hu), fun u hu => (by rw [h0.2] at hu; cases hu)⟩
  obtain ⟨B1, a1, a2, _, a4⟩ := main vs ws e0 _ hin0 (fadeInv_fresh h0) (fun v hm => hv v (by simp [hm])) ho
  obtain ⟨B2, b1, _, b3, _⟩ := main ws [] _ B1 a1 a2 (fun v hm => hv v (by simp [hm])) (by simpa using a4)
  rw [after_append]
  exact ⟨b3, fun n hn => (b1.next n hn).1⟩

/-! ## A concrete history -/

/-- Two edits arrive during a crossfade; units are labelled by their number of outputs. -/
example : ∃ (vs : List (NodeEv RU)), (∀ v ∈ vs, EvOK 1 v) ∧ (editLabels (fun u : RU => u.outs) vs) = [2, 3, 4] ∧
    Label rdemo (procOf rdemo) (fun u : RU => u.outs) ∧ (1 :: editLabels (fun u : RU => u.outs) vs).Pairwise (· < ·) := by
  refine ⟨[.edit ⟨some ⟨0, 2, 0⟩, 0, 0, .smooth, 2⟩, .tick [], .edit ⟨some ⟨0, 3, 0⟩, 0, 0, .smooth, 1⟩, .edit ⟨some ⟨0, 4, 0⟩, 0, 0, .power, 1⟩],
    ?_, rfl, ⟨fun u x => rfl, ?_⟩, by decide⟩
  · intro v hv
    simp only [List.mem_cons, List.not_mem_nil, or_false] at hv
    rcases hv with rfl | rfl | rfl | rfl <;> simp [EvOK]
  · intro u size x old
    have : ∀ k, uSt rdemo u (frames (rdemo.ins u) x) k = u := by
      intro k
      induction k with
      | zero => rfl
      | succ k ih => rw [uSt, ih]; rfl
    simp [procOf, this]

end Fundsp.Net
