import Verif.Net.FadeProps

/-!
# C13: what a node plays, sample by sample

`Eng.resting u` is a node that plays `u` and has nothing else to do, `Eng.ready u d` one that has just received the edit `d` as well. The theorems say what
is heard from them: the unit itself while there is no edit, a crossfade with known weights after one, and then again a resting node, or one that has just
received the last edit made in the meantime. Any history of a node can be followed with them.
-/

namespace Fundsp.Net
variable {U : Type}

/-- A node that plays `u`. -/
def Eng.resting (S : Units U ℝ) (u : U) : Eng U ℝ := ⟨u, S.zero, ⟨none, 0, 0, .smooth, S.zero⟩, ⟨none, 0, 0, .smooth, S.zero⟩⟩

/-- A node that plays `u` and has received `w`, if any. -/
def Eng.ready (S : Units U ℝ) (u : U) : Option (NodeEdit U ℝ) → Eng U ℝ
  | none => .resting S u
  | some d => { Eng.resting S u with next := d }

/-- What is heard: the outputs of ticks and blocks. -/
noncomputable def Eng.heard (S : Units U ℝ) (P : Proc U ℝ) (sr : ℝ) (outs : Nat) : List (NodeEv U) → Eng U ℝ → List (List ℝ ⊕ CBuf ℝ)
  | [], _ => []
  | .tick x :: vs, e => .inl (e.tick S sr x).2 :: Eng.heard S P sr outs vs (e.tick S sr x).1
  | .block size x old tmp :: vs, e =>
    .inr (e.process S P sr outs size x old tmp).2 :: Eng.heard S P sr outs vs (e.process S P sr outs size x old tmp).1
  | .edit d :: vs, e => Eng.heard S P sr outs vs (e.enqueue S d)

/-- A unit after the ticks and blocks of a history. `pick` chooses the buffer its output goes to. -/
def drive (S : Units U ℝ) (P : Proc U ℝ) (pick : CBuf ℝ → CBuf ℝ → CBuf ℝ) : List (NodeEv U) → U → U
  | [], u => u
  | .tick x :: vs, u => drive S P pick vs (S.utick u x).1
  | .block size x old tmp :: vs, u => drive S P pick vs (P u size x (pick old tmp)).1
  | .edit _ :: vs, u => drive S P pick vs u

/-- The last edit, if any. -/
def waiting : List (NodeEv U) → Option (NodeEdit U ℝ)
  | [] => none
  | .edit d :: vs => (waiting vs).or (some d)
  | _ :: vs => waiting vs

/-- Samples in a history. -/
def elapsed : List (NodeEv U) → ℕ
  | [] => 0
  | .tick _ :: vs => 1 + elapsed vs
  | .block size _ _ _ :: vs => size + elapsed vs
  | .edit _ :: vs => elapsed vs

/-- No tick or block of the history reaches the end of a crossfade of `T` samples, `k` of which are over. Ticks go on until `T` is reached; blocks finish a
crossfade when less than one sample is left of it. -/
def Within (T : ℝ) : ℕ → List (NodeEv U) → Prop
  | _, [] => True
  | k, .edit _ :: vs => Within T k vs
  | k, .tick _ :: vs => (k + 1 : ℕ) < T ∧ Within T (k + 1) vs
  | k, .block size _ _ _ :: vs => k + size < ⌊T⌋₊ ∧ Within T (k + size) vs

/-- The tick or block reaches the end of the crossfade. -/
def Ends (T : ℝ) (k : ℕ) : NodeEv U → Prop
  | .tick _ => T ≤ (k + 1 : ℕ)
  | .block size _ _ _ => ⌊T⌋₊ ≤ k + size
  | .edit _ => False

/-! ## Nodes that cannot be told apart -/

structure Alike (a b : Eng U ℝ) : Prop where
  unit : a.unit = b.unit
  next : a.next.unit = b.next.unit
  latest : a.latest.unit = b.latest.unit
  fade : a.next.unit.isSome → a.phase = b.phase ∧ a.next.fade = b.next.fade ∧ a.next.time = b.next.time
  wait : a.latest.unit.isSome → a.latest.fade = b.latest.fade ∧ a.latest.time = b.latest.time

theorem Alike.nextPhase (S : Units U ℝ) {a b : Eng U ℝ} (h : Alike a b) : Alike (a.nextPhase S) (b.nextPhase S) := by
  obtain ⟨u, p, ⟨n, i, j, f, t⟩, ⟨l, li, lj, lf, lt⟩⟩ := a
  obtain ⟨u', p', ⟨n', i', j', f', t'⟩, ⟨l', li', lj', lf', lt'⟩⟩ := b
  obtain ⟨h1, h2, h3, h4, h5⟩ := h
  simp only at h1 h2 h3 h4 h5
  subst h1 h2 h3
  cases n with
  | none => exact ⟨rfl, rfl, rfl, h4, h5⟩
  | some n => exact ⟨rfl, rfl, rfl, fun hl => ⟨rfl, (h5 hl).1, (h5 hl).2⟩, fun hl => Bool.noConfusion hl⟩

theorem Alike.tick (S : Units U ℝ) (sr : ℝ) {a b : Eng U ℝ} (h : Alike a b) (x : List ℝ) :
    Alike (a.tick S sr x).1 (b.tick S sr x).1 ∧ (a.tick S sr x).2 = (b.tick S sr x).2 := by
  obtain ⟨u, p, ⟨n, i, j, f, t⟩, ⟨l, li, lj, lf, lt⟩⟩ := a
  obtain ⟨u', p', ⟨n', i', j', f', t'⟩, ⟨l', li', lj', lf', lt'⟩⟩ := b
  obtain ⟨h1, h2, h3, h4, h5⟩ := h
  simp only at h1 h2 h3 h4 h5
  subst h1 h2 h3
  cases n with
  | none => exact ⟨⟨rfl, rfl, rfl, h4, h5⟩, rfl⟩
  | some n =>
    obtain ⟨e1, e2, e3⟩ := h4 rfl
    subst e1 e2 e3
    refine ⟨?_, rfl⟩
    simp only [Eng.tick]
    split
    · exact Alike.nextPhase S ⟨rfl, rfl, rfl, fun _ => ⟨rfl, rfl, rfl⟩, h5⟩
    · exact ⟨rfl, rfl, rfl, fun _ => ⟨rfl, rfl, rfl⟩, h5⟩

theorem Alike.process (S : Units U ℝ) (P : Proc U ℝ) (sr : ℝ) (outs : Nat) {a b : Eng U ℝ} (h : Alike a b) (size : Nat) (x old tmp : CBuf ℝ) :
    Alike (a.process S P sr outs size x old tmp).1 (b.process S P sr outs size x old tmp).1 ∧
    (a.process S P sr outs size x old tmp).2 = (b.process S P sr outs size x old tmp).2 := by
  obtain ⟨u, p, ⟨n, i, j, f, t⟩, ⟨l, li, lj, lf, lt⟩⟩ := a
  obtain ⟨u', p', ⟨n', i', j', f', t'⟩, ⟨l', li', lj', lf', lt'⟩⟩ := b
  obtain ⟨h1, h2, h3, h4, h5⟩ := h
  simp only at h1 h2 h3 h4 h5
  subst h1 h2 h3
  cases n with
  | none => exact ⟨⟨rfl, rfl, rfl, h4, h5⟩, rfl⟩
  | some n =>
    obtain ⟨e1, e2, e3⟩ := h4 rfl
    subst e1 e2 e3
    refine ⟨?_, rfl⟩
    simp only [Eng.process]
    split
    · exact Alike.nextPhase S ⟨rfl, rfl, rfl, fun _ => ⟨rfl, rfl, rfl⟩, h5⟩
    · exact ⟨rfl, rfl, rfl, fun _ => ⟨rfl, rfl, rfl⟩, h5⟩

theorem Alike.enqueue (S : Units U ℝ) {a b : Eng U ℝ} (h : Alike a b) (d : NodeEdit U ℝ) : Alike (a.enqueue S d) (b.enqueue S d) := by
  obtain ⟨u, p, ⟨n, i, j, f, t⟩, ⟨l, li, lj, lf, lt⟩⟩ := a
  obtain ⟨u', p', ⟨n', i', j', f', t'⟩, ⟨l', li', lj', lf', lt'⟩⟩ := b
  obtain ⟨h1, h2, h3, h4, h5⟩ := h
  simp only at h1 h2 h3 h4 h5
  subst h1 h2 h3
  cases n with
  | none => exact ⟨rfl, rfl, rfl, fun _ => ⟨rfl, rfl, rfl⟩, h5⟩
  | some n => exact ⟨rfl, rfl, rfl, h4, fun _ => ⟨rfl, rfl⟩⟩

theorem Alike.heard (S : Units U ℝ) (P : Proc U ℝ) (sr : ℝ) (outs : Nat) (vs : List (NodeEv U)) : ∀ {a b : Eng U ℝ}, Alike a b →
    a.heard S P sr outs vs = b.heard S P sr outs vs := by
  induction vs with
  | nil => intro a b _; rfl
  | cons v vs ih =>
    intro a b h
    cases v with
    | tick x => simp only [Eng.heard]; rw [ih (h.tick S sr x).1, (h.tick S sr x).2]
    | block size x old tmp => simp only [Eng.heard]; rw [ih (h.process S P sr outs size x old tmp).1, (h.process S P sr outs size x old tmp).2]
    | edit d => exact ih (h.enqueue S d)

/-! ## The course of a crossfade -/

/-- State of a node in a crossfade from `u` to `n`, `k` of `T` samples of which are over. -/
structure Fading (r : ℝ) (f : Fade) (t : ℝ) (k : ℕ) (u n : U) (w : Option (NodeEdit U ℝ)) (e : Eng U ℝ) : Prop where
  unit : e.unit = u
  next : e.next.unit = some n
  phase : e.phase = k / (t * r)
  fade : e.next.fade = f
  time : e.next.time = t
  latest : e.latest.unit = w.bind NodeEdit.unit
  wait : ∀ d ∈ w, e.latest.fade = d.fade ∧ e.latest.time = d.time

section
variable {S : Units U ℝ} (hA : S.toArith = realArith)
include hA

theorem Fading.tick {sr : ℝ} {f : Fade} {time : ℝ} {k : ℕ} {u n : U} {w : Option (NodeEdit U ℝ)} {e : Eng U ℝ} (hT : 0 < time * sr)
    (h : Fading sr f time k u n w e) (x : List ℝ) :
    (e.tick S sr x).2 = List.zipWith (fun a b => a * realArith.fadeAt f (1 - k / (time * sr)) + b * realArith.fadeAt f (k / (time * sr)))
      (S.utick u x).2 (S.utick n x).2 ∧
    (((k + 1 : ℕ) < time * sr) → Fading sr f time (k + 1) (S.utick u x).1 (S.utick n x).1 w (e.tick S sr x).1) ∧
    (time * sr ≤ (k + 1 : ℕ) → Alike (e.tick S sr x).1 (Eng.ready S (S.utick n x).1 w)) := by
  obtain ⟨u', p, ⟨n', i, j, f', t⟩, ⟨l, li, lj, lf, lt⟩⟩ := e
  obtain ⟨h1, h2, h3, h4, h5, h6, h7⟩ := h
  simp only at h1 h2 h3 h4 h5 h6 h7
  subst h1 h2 h3 h4 h5 h6
  have hp : S.add (k / (t * sr)) (S.div S.one (S.mul t sr)) = ((k + 1 : ℕ) : ℝ) / (t * sr) := by
    rw [hA]; show (k : ℝ) / (t * sr) + 1 / (t * sr) = _; push_cast; ring
  have hge : S.ge (((k + 1 : ℕ) : ℝ) / (t * sr)) S.one = true ↔ t * sr ≤ (k + 1 : ℕ) := by
    rw [hA]
    show (decide ((1 : ℝ) ≤ _)) = true ↔ _
    rw [decide_eq_true_iff, le_div_iff₀ hT, one_mul]
  simp only [Eng.tick, hp]
  refine ⟨?_, fun hk => ?_, fun hk => ?_⟩
  · rw [hA]; rfl
  · rw [if_neg (by rw [hge]; exact not_le.2 hk)]
    exact ⟨rfl, rfl, rfl, rfl, rfl, rfl, h7⟩
  · rw [if_pos (hge.2 hk)]
    cases w with
    | none => exact ⟨rfl, rfl, rfl, fun hn => Bool.noConfusion hn, fun hn => Bool.noConfusion hn⟩
    | some d => exact ⟨rfl, rfl, rfl, fun _ => ⟨rfl, (h7 d rfl).1, (h7 d rfl).2⟩, fun hn => Bool.noConfusion hn⟩

theorem Fading.block (P : Proc U ℝ) {sr : ℝ} (outs : Nat) {f : Fade} {time : ℝ} {k : ℕ} {u n : U} {w : Option (NodeEdit U ℝ)} {e : Eng U ℝ}
    (hT : 0 < time * sr) (h : Fading sr f time k u n w e) (size : ℕ) (x old tmp : CBuf ℝ) :
    (∀ c j, c < outs → j < size → (e.process S P sr outs size x old tmp).2 c j =
      if k + j < ⌊time * sr⌋₊ then (P u size x old).2 c j * realArith.fadeAt f (1 - (k + j : ℕ) / (time * sr)) +
        (P n size x tmp).2 c j * realArith.fadeAt f ((k + j : ℕ) / (time * sr))
      else (P n size x tmp).2 c j) ∧
    (k + size < ⌊time * sr⌋₊ → Fading sr f time (k + size) (P u size x old).1 (P n size x tmp).1 w (e.process S P sr outs size x old tmp).1) ∧
    (⌊time * sr⌋₊ ≤ k + size → Alike (e.process S P sr outs size x old tmp).1 (Eng.ready S (P n size x tmp).1 w)) := by
  obtain ⟨u', p, ⟨n', i, j, f', t⟩, ⟨l, li, lj, lf, lt⟩⟩ := e
  obtain ⟨h1, h2, h3, h4, h5, h6, h7⟩ := h
  simp only at h1 h2 h3 h4 h5 h6 h7
  subst h1 h2 h3 h4 h5 h6
  have hleft : S.toNat (S.mul (S.mul (S.sub S.one (k / (t * sr))) t) sr) = ⌊t * sr⌋₊ - k := by
    rw [hA]
    show ⌊(1 - (k : ℝ) / (t * sr)) * t * sr⌋₊ = _
    rw [← Nat.floor_sub_natCast]
    congr 1
    have : t * sr ≠ 0 := hT.ne'
    rw [mul_assoc, sub_mul, div_mul_cancel₀ _ this, one_mul]
  have hseq : ∀ j : ℕ, fadeSeq S.toArith (k / (t * sr)) (S.div S.one (S.mul t sr)) j = ((k + j : ℕ) : ℝ) / (t * sr) := by
    intro j; rw [hA, fadeSeq_real]; show (k : ℝ) / (t * sr) + j * (1 / (t * sr)) = _; push_cast; ring
  have hph : ∀ j : ℕ, S.add (k / (t * sr)) (S.div (S.ofNat j) (S.mul t sr)) = ((k + j : ℕ) : ℝ) / (t * sr) := by
    intro j; rw [hA]; show (k : ℝ) / (t * sr) + j / (t * sr) = _; push_cast; ring
  simp only [Eng.process, hleft, hseq, hph]
  refine ⟨fun c j hc hj => ?_, fun hk => ?_, fun hk => ?_⟩
  · by_cases hkj : k + j < ⌊t * sr⌋₊
    · have hm : j < min size (⌊t * sr⌋₊ - k) := by omega
      rw [if_pos ⟨hc, hm⟩, if_pos ⟨hc, hm⟩, if_pos hkj, hA]; rfl
    · have hm : ¬ (c < outs ∧ j < min size (⌊t * sr⌋₊ - k)) := by omega
      rw [if_neg hm, if_pos ⟨hc, hj⟩, if_neg hkj]
  · rw [if_neg (by omega), show min size (⌊t * sr⌋₊ - k) = size by omega]
    exact ⟨rfl, rfl, rfl, rfl, rfl, rfl, h7⟩
  · rw [if_pos (by omega)]
    cases w with
    | none => exact ⟨rfl, rfl, rfl, fun hn => Bool.noConfusion hn, fun hn => Bool.noConfusion hn⟩
    | some d => exact ⟨rfl, rfl, rfl, fun _ => ⟨rfl, (h7 d rfl).1, (h7 d rfl).2⟩, fun hn => Bool.noConfusion hn⟩

theorem fading_after (P : Proc U ℝ) (outs : Nat) {sr : ℝ} {f : Fade} {time : ℝ} (hT : 0 < time * sr) (q : List (NodeEv U)) :
    ∀ {k : ℕ} {u n : U} {w : Option (NodeEdit U ℝ)} {e : Eng U ℝ}, Fading sr f time k u n w e → Within (time * sr) k q →
      Fading sr f time (k + elapsed q) (drive S P (fun old _ => old) q u) (drive S P (fun _ tmp => tmp) q n) ((waiting q).or w)
        (after S P sr outs e q) := by
  induction q with
  | nil => intro k u n w e h _; exact h
  | cons v q ih =>
    intro k u n w e h hw
    cases v with
    | tick x =>
      have := ih ((Fading.tick hA hT h x).2.1 hw.1) hw.2
      simp only [elapsed, ← Nat.add_assoc]
      exact this
    | block size x old tmp =>
      have := ih ((Fading.block hA P outs hT h size x old tmp).2.1 hw.1) hw.2
      simp only [elapsed, ← Nat.add_assoc]
      exact this
    | edit d =>
      have hd : Fading sr f time k u n (some d) (e.enqueue S d) := by
        unfold Eng.enqueue
        rw [h.next]
        exact ⟨h.unit, h.next, h.phase, h.fade, h.time, rfl, fun d' hd' => by cases hd'; exact ⟨rfl, rfl⟩⟩
      have := ih hd hw
      simp only [elapsed, waiting]
      cases hwq : waiting q <;> rw [hwq] at this <;> exact this

theorem fading_ready (P : Proc U ℝ) (outs : Nat) {sr : ℝ} (u n : U) (d : NodeEdit U ℝ) (hd : d.unit = some n) (hT : 0 < d.time * sr) (q : List (NodeEv U))
    (hw : Within (d.time * sr) 0 q) :
    Fading sr d.fade d.time (elapsed q) (drive S P (fun old _ => old) q u) (drive S P (fun _ tmp => tmp) q n) (waiting q)
      (after S P sr outs (Eng.ready S u (some d)) q) := by
  have h0 : Fading sr d.fade d.time 0 u n none (Eng.ready S u (some d)) := by
    refine ⟨rfl, hd, ?_, rfl, rfl, rfl, fun e he => (Option.not_mem_none e he).elim⟩
    simp only [Eng.ready, Eng.resting, hA]
    show (0 : ℝ) = _
    simp
  have := fading_after hA P outs hT q h0 hw
  rw [Nat.zero_add] at this
  cases hwq : waiting q <;> rw [hwq] at this <;> exact this

end

/-! ## Theorems -/

/-- **C13** While there is no edit, the output of a node is the output of its unit, and the node remains one that plays it. An edit is received at once. -/
theorem C13_resting (S : Units U ℝ) (P : Proc U ℝ) (sr : ℝ) (outs : Nat) (u : U) :
    (∀ x, ((Eng.resting S u).tick S sr x).2 = (S.utick u x).2 ∧ ((Eng.resting S u).tick S sr x).1 = .resting S (S.utick u x).1) ∧
    (∀ size x old tmp, ((Eng.resting S u).process S P sr outs size x old tmp).2 = (P u size x old).2 ∧
      ((Eng.resting S u).process S P sr outs size x old tmp).1 = .resting S (P u size x old).1) ∧
    ∀ d, (Eng.resting S u).enqueue S d = .ready S u (some d) :=
  ⟨fun _ => ⟨rfl, rfl⟩, fun _ _ _ _ => ⟨rfl, rfl⟩, fun _ => rfl⟩

/-- **C13** The course of a crossfade from `u` to the unit `n` of the edit `d`, after any ticks, blocks and further edits in which it has not ended. Both
units have been run by these calls from where they were; the samples of the next tick or block are a mixture with weights given by the fade curve at the
position `K / T`; samples of a block after the end are those of the new unit alone. -/
theorem C13_crossfade {S : Units U ℝ} (hA : S.toArith = realArith) (P : Proc U ℝ) (sr : ℝ) (outs : Nat) (u n : U) (d : NodeEdit U ℝ)
    (hd : d.unit = some n) (hT : 0 < d.time * sr) (q : List (NodeEv U)) (hw : Within (d.time * sr) 0 q) :
    let e := after S P sr outs (Eng.ready S u (some d)) q
    let T := d.time * sr
    let K := elapsed q
    let old := drive S P (fun old _ => old) q u
    let new := drive S P (fun _ tmp => tmp) q n
    (∀ x, (e.tick S sr x).2 = List.zipWith (fun a b => a * realArith.fadeAt d.fade (1 - K / T) + b * realArith.fadeAt d.fade (K / T))
      (S.utick old x).2 (S.utick new x).2) ∧
    ∀ size x out tmp c j, c < outs → j < size → (e.process S P sr outs size x out tmp).2 c j =
      if K + j < ⌊T⌋₊ then (P old size x out).2 c j * realArith.fadeAt d.fade (1 - (K + j : ℕ) / T) +
        (P new size x tmp).2 c j * realArith.fadeAt d.fade ((K + j : ℕ) / T)
      else (P new size x tmp).2 c j := by
  intro e T K old new
  have h := fading_ready hA P outs u n d hd hT q hw
  exact ⟨fun x => (Fading.tick hA hT h x).1, fun size x out tmp => (Fading.block hA P outs hT h size x out tmp).1⟩

/-- **C13** The end of a crossfade: after the tick or block that reaches it, the node is, for all that can be heard of it, a node that plays the new unit,
from where it is, and that has received the last edit made during the crossfade, if any. -/
theorem C13_crossfade_end {S : Units U ℝ} (hA : S.toArith = realArith) (P : Proc U ℝ) (sr : ℝ) (outs : Nat) (u n : U) (d : NodeEdit U ℝ)
    (hd : d.unit = some n) (hT : 0 < d.time * sr) (q : List (NodeEv U)) (hw : Within (d.time * sr) 0 q) (v : NodeEv U)
    (hv : Ends (d.time * sr) (elapsed q) v) (vs : List (NodeEv U)) :
    (after S P sr outs (Eng.ready S u (some d)) (q ++ [v])).heard S P sr outs vs =
      (Eng.ready S (drive S P (fun _ tmp => tmp) (q ++ [v]) n) (waiting q)).heard S P sr outs vs := by
  have h := fading_ready hA P outs u n d hd hT q hw
  have hdr : ∀ (l : List (NodeEv U)) (w : U), drive S P (fun _ tmp => tmp) (l ++ [v]) w = drive S P (fun _ tmp => tmp) [v] (drive S P (fun _ tmp => tmp) l w) := by
    intro l
    induction l with
    | nil => intro w; rfl
    | cons e l ih => intro w; cases e <;> exact ih _
  refine Alike.heard S P sr outs vs ?_
  rw [hdr, after_append]
  cases v with
  | tick x => exact (Fading.tick hA hT h x).2.2 hv
  | block size x old tmp => exact (Fading.block hA P outs hT h size x old tmp).2.2 hv
  | edit d => exact hv.elim

/-! ## Non-vacuity -/

/-- A crossfade of 4 samples from a constant 0 to a constant 10, during which 20 and 30 are asked for: half way through it is 5, and after it the node plays
10 and has received 30. -/
noncomputable def nodeCourse : List (NodeEv RU) :=
  [.tick [], .edit ⟨some ⟨0, 1, 20⟩, 0, 0, .power, 1⟩, .edit ⟨some ⟨0, 1, 30⟩, 0, 0, .smooth, 2⟩, .tick []]

theorem nodeCourse_within : Within (2 * 2) 0 nodeCourse := by
  simp [nodeCourse, Within]; norm_num

example : ((after rdemo (procOf rdemo) 2 1 (Eng.ready rdemo ⟨0, 1, 0⟩ (some ⟨some ⟨0, 1, 10⟩, 0, 0, .smooth, 2⟩)) nodeCourse).tick rdemo 2 []).2 = [5] := by
  refine ((C13_crossfade (S := rdemo) rfl (procOf rdemo) 2 1 ⟨0, 1, 0⟩ ⟨0, 1, 10⟩ ⟨some ⟨0, 1, 10⟩, 0, 0, .smooth, 2⟩ rfl (by norm_num) nodeCourse nodeCourse_within).1 []).trans ?_
  simp only [nodeCourse, drive, rdemo, elapsed, List.replicate, List.zipWith_cons_cons, List.zipWith_nil_left, realArith, Math.smooth5]
  norm_num

example (vs : List (NodeEv RU)) : (after rdemo (procOf rdemo) 2 1 (Eng.ready rdemo ⟨0, 1, 0⟩ (some ⟨some ⟨0, 1, 10⟩, 0, 0, .smooth, 2⟩))
      (nodeCourse ++ [.tick []] ++ [.tick []])).heard rdemo (procOf rdemo) 2 1 vs =
    (Eng.ready rdemo ⟨0, 1, 10⟩ (some ⟨some ⟨0, 1, 30⟩, 0, 0, .smooth, 2⟩)).heard rdemo (procOf rdemo) 2 1 vs := by
  refine C13_crossfade_end (S := rdemo) rfl (procOf rdemo) 2 1 ⟨0, 1, 0⟩ ⟨0, 1, 10⟩ ⟨some ⟨0, 1, 10⟩, 0, 0, .smooth, 2⟩ rfl (by norm_num) (nodeCourse ++ [.tick []])
    ?_ (.tick []) ?_ vs
  · simp [nodeCourse, Within]; norm_num
  · simp only [Ends, nodeCourse, elapsed, List.cons_append, List.nil_append]; norm_num

end Fundsp.Net
