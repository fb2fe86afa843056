import Verif.Slot.Props

/-!
# C25: what a slot plays, sample by sample

`resting u` is a slot that plays `u` and has nothing else to do. The theorems say what is heard from it: the unit itself while nothing is set, a crossfade
with known weights after a `set`, and then again a resting slot, or one that has just received the last unit that was set in the meantime. Any history can
be followed with them from `Slot::new` on.
-/

namespace Fundsp.Slot
open Fundsp.Net
variable {U α : Type}

/-- A slot that plays `u`. -/
def Back.resting (S : Units U α) (ins outs : Nat) (sr : α) (u : U) : Back U α := ⟨ins, outs, sr, u, none, .smooth, S.zero, S.zero, none, .smooth, S.zero, []⟩

/-- A slot that plays `u` and has received `w`, if any. -/
def Back.ready (S : Units U α) (ins outs : Nat) (sr : α) (u : U) : Option (Upd U α) → Back U α
  | none => .resting S ins outs sr u
  | some d => { Back.resting S ins outs sr u with next := some d.unit, time := d.time, fade := d.fade }

/-- What is heard: the outputs of ticks and blocks. -/
def Back.heard (S : Units U α) (P : Proc U α) (cap : Nat) : List (Call U α) → Back U α → List (List α ⊕ CBuf α)
  | [], _ => []
  | .tick x :: cs, b => .inl (b.tick S x).2 :: Back.heard S P cap cs (b.step S P cap (.tick x))
  | .block size x old tmp :: cs, b => .inr (b.process S P size x old tmp).2 :: Back.heard S P cap cs (b.step S P cap (.block size x old tmp))
  | c :: cs, b => Back.heard S P cap cs (b.step S P cap c)

/-- A unit after the ticks and blocks of a list of calls. `pick` chooses the buffer its output goes to. -/
def drive (S : Units U α) (P : Proc U α) (pick : CBuf α → CBuf α → CBuf α) : List (Call U α) → U → U
  | [], u => u
  | .tick x :: cs, u => drive S P pick cs (S.utick u x).1
  | .block size x old tmp :: cs, u => drive S P pick cs (P u size x (pick old tmp)).1
  | _ :: cs, u => drive S P pick cs u

/-- The unit set last, if any. -/
def waiting : List (Call U α) → Option (Upd U α)
  | [] => none
  | .set d :: cs => (waiting cs).or (some d)
  | _ :: cs => waiting cs

/-- The calls are ticks, blocks and `set`s, and no tick or block among them reaches the end of a crossfade of `T` samples, `k` of which are over. Ticks go
on until `T` is reached; blocks finish a crossfade when less than one sample is left of it. -/
def Within (T : ℝ) : ℕ → List (Call U ℝ) → Prop
  | _, [] => True
  | k, .set _ :: cs => Within T k cs
  | k, .tick _ :: cs => (k + 1 : ℕ) < T ∧ Within T (k + 1) cs
  | k, .block size _ _ _ :: cs => k + size < ⌊T⌋₊ ∧ Within T (k + size) cs
  | _, _ => False

/-- The call reaches the end of the crossfade. -/
def Ends (T : ℝ) (k : ℕ) : Call U ℝ → Prop
  | .tick _ => T ≤ (k + 1 : ℕ)
  | .block size _ _ _ => ⌊T⌋₊ ≤ k + size
  | _ => False

/-! ## Slots that cannot be told apart -/

structure Sim (a b : Back U α) : Prop where
  ins : a.ins = b.ins
  outs : a.outs = b.outs
  sr : a.sr = b.sr
  current : a.current = b.current
  next : a.next = b.next
  latest : a.latest = b.latest
  queue : a.queue = b.queue
  fade : a.next.isSome → a.phase = b.phase ∧ a.time = b.time ∧ a.fade = b.fade
  wait : a.latest.isSome → a.latestFade = b.latestFade ∧ a.latestTime = b.latestTime

theorem Sim.receive (S : Units U α) {a b : Back U α} (h : Sim a b) (d : Upd U α) : Sim (a.receive S d) (b.receive S d) := by
  obtain ⟨i, o, r, c, n, f, t, p, l, lf, lt, q⟩ := a
  obtain ⟨i', o', r', c', n', f', t', p', l', lf', lt', q'⟩ := b
  obtain ⟨h1, h2, h3, h4, h5, h6, h7, h8, h9⟩ := h
  simp only at h1 h2 h3 h4 h5 h6 h7 h8 h9
  subst h1 h2 h3 h4 h5 h6 h7
  cases n with
  | none => exact ⟨rfl, rfl, rfl, rfl, rfl, rfl, rfl, fun _ => ⟨rfl, rfl, rfl⟩, h9⟩
  | some n => exact ⟨rfl, rfl, rfl, rfl, rfl, rfl, rfl, h8, fun _ => ⟨rfl, rfl⟩⟩

theorem Sim.handle (S : Units U α) {a b : Back U α} (h : Sim a b) : Sim (a.handle S) (b.handle S) := by
  have key : ∀ (l : List (Upd U α)) (a b : Back U α), Sim a b → Sim (l.foldl (Back.receive S) a) (l.foldl (Back.receive S) b) := by
    intro l
    induction l with
    | nil => intro a b h; exact h
    | cons d l ih => intro a b h; exact ih _ _ (h.receive S d)
  have := key a.queue a b h
  unfold Back.handle
  rw [← h.queue]
  exact ⟨this.1, this.2, this.3, this.4, this.5, this.6, rfl, this.8, this.9⟩

theorem Sim.nextPhase (S : Units U α) {a b : Back U α} (h : Sim a b) : Sim (a.nextPhase S) (b.nextPhase S) := by
  obtain ⟨i, o, r, c, n, f, t, p, l, lf, lt, q⟩ := a
  obtain ⟨i', o', r', c', n', f', t', p', l', lf', lt', q'⟩ := b
  obtain ⟨h1, h2, h3, h4, h5, h6, h7, h8, h9⟩ := h
  simp only at h1 h2 h3 h4 h5 h6 h7 h8 h9
  subst h1 h2 h3 h4 h5 h6 h7
  cases n with
  | none => exact ⟨rfl, rfl, rfl, rfl, rfl, rfl, rfl, h8, h9⟩
  | some n => exact ⟨rfl, rfl, rfl, rfl, rfl, rfl, rfl, fun hl => ⟨rfl, (h9 hl).2, (h9 hl).1⟩, fun hl => Bool.noConfusion hl⟩

theorem Sim.tick' (S : Units U α) {a b : Back U α} (h : Sim a b) (x : List α) : Sim (a.tick' S x).1 (b.tick' S x).1 ∧ (a.tick' S x).2 = (b.tick' S x).2 := by
  obtain ⟨i, o, r, c, n, f, t, p, l, lf, lt, q⟩ := a
  obtain ⟨i', o', r', c', n', f', t', p', l', lf', lt', q'⟩ := b
  obtain ⟨h1, h2, h3, h4, h5, h6, h7, h8, h9⟩ := h
  simp only at h1 h2 h3 h4 h5 h6 h7 h8 h9
  subst h1 h2 h3 h4 h5 h6 h7
  cases n with
  | none => exact ⟨⟨rfl, rfl, rfl, rfl, rfl, rfl, rfl, fun hn => Bool.noConfusion hn, h9⟩, rfl⟩
  | some n =>
    obtain ⟨e1, e2, e3⟩ := h8 rfl
    subst e1 e2 e3
    refine ⟨?_, rfl⟩
    simp only [Back.tick']
    split
    · exact Sim.nextPhase S ⟨rfl, rfl, rfl, rfl, rfl, rfl, rfl, fun _ => ⟨rfl, rfl, rfl⟩, h9⟩
    · exact ⟨rfl, rfl, rfl, rfl, rfl, rfl, rfl, fun _ => ⟨rfl, rfl, rfl⟩, h9⟩

theorem Sim.process' (S : Units U α) (P : Proc U α) {a b : Back U α} (h : Sim a b) (size : Nat) (x old tmp : CBuf α) :
    Sim (a.process' S P size x old tmp).1 (b.process' S P size x old tmp).1 ∧ (a.process' S P size x old tmp).2 = (b.process' S P size x old tmp).2 := by
  obtain ⟨i, o, r, c, n, f, t, p, l, lf, lt, q⟩ := a
  obtain ⟨i', o', r', c', n', f', t', p', l', lf', lt', q'⟩ := b
  obtain ⟨h1, h2, h3, h4, h5, h6, h7, h8, h9⟩ := h
  simp only at h1 h2 h3 h4 h5 h6 h7 h8 h9
  subst h1 h2 h3 h4 h5 h6 h7
  cases n with
  | none => exact ⟨⟨rfl, rfl, rfl, rfl, rfl, rfl, rfl, fun hn => Bool.noConfusion hn, h9⟩, rfl⟩
  | some n =>
    obtain ⟨e1, e2, e3⟩ := h8 rfl
    subst e1 e2 e3
    refine ⟨?_, rfl⟩
    simp only [Back.process']
    split
    · exact Sim.nextPhase S ⟨rfl, rfl, rfl, rfl, rfl, rfl, rfl, fun _ => ⟨rfl, rfl, rfl⟩, h9⟩
    · exact ⟨rfl, rfl, rfl, rfl, rfl, rfl, rfl, fun _ => ⟨rfl, rfl, rfl⟩, h9⟩

theorem Sim.step (S : Units U α) (P : Proc U α) (cap : Nat) {a b : Back U α} (h : Sim a b) (c : Call U α) : Sim (a.step S P cap c) (b.step S P cap c) := by
  cases c with
  | tick x => exact ((h.handle S).tick' S x).1
  | block size x old tmp => exact ((h.handle S).process' S P size x old tmp).1
  | set d =>
    obtain ⟨i, o, r, c, n, f, t, p, l, lf, lt, q⟩ := a
    obtain ⟨i', o', r', c', n', f', t', p', l', lf', lt', q'⟩ := b
    obtain ⟨h1, h2, h3, h4, h5, h6, h7, h8, h9⟩ := h
    simp only at h1 h2 h3 h4 h5 h6 h7 h8 h9
    subst h1 h2 h3 h4 h5 h6 h7
    simp only [Back.step, Back.set]
    split
    · split
      · exact ⟨rfl, rfl, rfl, rfl, rfl, rfl, rfl, h8, h9⟩
      · exact ⟨rfl, rfl, rfl, rfl, rfl, rfl, rfl, h8, h9⟩
    · exact ⟨rfl, rfl, rfl, rfl, rfl, rfl, rfl, h8, h9⟩
  | reset =>
    obtain ⟨i, o, r, c, n, f, t, p, l, lf, lt, q⟩ := a
    obtain ⟨i', o', r', c', n', f', t', p', l', lf', lt', q'⟩ := b
    obtain ⟨h1, h2, h3, h4, h5, h6, h7, h8, h9⟩ := h
    simp only at h1 h2 h3 h4 h5 h6 h7 h8 h9
    subst h1 h2 h3 h4 h5 h6 h7
    cases l with
    | some l => exact ⟨rfl, rfl, rfl, rfl, rfl, rfl, rfl, fun hn => Bool.noConfusion hn, fun hn => Bool.noConfusion hn⟩
    | none =>
      cases n with
      | some n => exact ⟨rfl, rfl, rfl, rfl, rfl, rfl, rfl, fun hn => Bool.noConfusion hn, fun hn => Bool.noConfusion hn⟩
      | none => exact ⟨rfl, rfl, rfl, rfl, rfl, rfl, rfl, h8, h9⟩
  | setRate sr =>
    obtain ⟨h1, h2, h3, h4, h5, h6, h7, h8, h9⟩ := h
    refine ⟨h1, h2, rfl, ?_, ?_, ?_, h7, fun hn => h8 ?_, fun hn => h9 ?_⟩
    · simp only [Back.step, Back.setRate, h4]
    · simp only [Back.step, Back.setRate, h5]
    · simp only [Back.step, Back.setRate, h6]
    · simpa [Back.step, Back.setRate] using hn
    · simpa [Back.step, Back.setRate] using hn

theorem Sim.heard (S : Units U α) (P : Proc U α) (cap : Nat) (cs : List (Call U α)) : ∀ {a b : Back U α}, Sim a b →
    a.heard S P cap cs = b.heard S P cap cs := by
  induction cs with
  | nil => intro a b _; rfl
  | cons c cs ih =>
    intro a b h
    have hs := ih (h.step S P cap c)
    cases c with
    | tick x => simp only [Back.heard]; rw [hs]; simp only [Back.tick]; rw [((h.handle S).tick' S x).2]
    | block size x old tmp => simp only [Back.heard]; rw [hs]; simp only [Back.process]; rw [((h.handle S).process' S P size x old tmp).2]
    | set d => exact hs
    | reset => exact hs
    | setRate sr => exact hs

theorem Sim.refl (a : Back U α) : Sim a a := ⟨rfl, rfl, rfl, rfl, rfl, rfl, rfl, fun _ => ⟨rfl, rfl, rfl⟩, fun _ => ⟨rfl, rfl⟩⟩

/-! ## The course of a crossfade -/

/-- State of a slot in a crossfade from `u` to `n`, `k` of `T` samples of which are over. -/
structure Fading (i o : Nat) (r : ℝ) (f : Fade) (t : ℝ) (k : ℕ) (u n : U) (w : Option (Upd U ℝ)) (b : Back U ℝ) : Prop where
  ins : b.ins = i
  outs : b.outs = o
  sr : b.sr = r
  current : b.current = u
  next : b.next = some n
  phase : b.phase = k / (t * r)
  time : b.time = t
  fade : b.fade = f
  latest : b.latest = w.map Upd.unit
  wait : ∀ d ∈ w, b.latestFade = d.fade ∧ b.latestTime = d.time
  queue : b.queue = []

/-! ### Messages -/

theorem receives_with (S : Units U α) (l : List (Upd U α)) : ∀ (b : Back U α) (q : List (Upd U α)), l.foldl (Back.receive S) { b with queue := q } =
    { l.foldl (Back.receive S) b with queue := q } := by
  induction l with
  | nil => intro b q; rfl
  | cons e l ih =>
    intro b q
    rw [List.foldl_cons, List.foldl_cons, ← ih]
    congr 1
    unfold Back.receive; cases b.next <;> rfl

theorem handle_with (S : Units U α) (b : Back U α) (q : List (Upd U α)) : ({ b with queue := q } : Back U α).handle S =
    { q.foldl (Back.receive S) b with queue := [] } := by
  unfold Back.handle
  rw [receives_with]

theorem handle_set (S : Units U α) (cap : Nat) (b : Back U α) (d : Upd U α) (ha : S.ins d.unit = b.ins ∧ S.outs d.unit = b.outs) (hq : b.queue.length < cap) :
    (b.set S cap d).handle S = (b.handle S).receive S d := by
  have hr : ∀ (b : Back U α) (q : List (Upd U α)), ({ b with queue := q } : Back U α).receive S d = { b.receive S d with queue := q } := by
    intro b q; unfold Back.receive; cases b.next <;> rfl
  unfold Back.set Back.handle
  rw [if_pos ha, if_pos hq, receives_with, hr, List.foldl_append]
  rfl

theorem sets_run (S : Units U α) (P : Proc U α) (cap : Nat) (ds : List (Upd U α)) : ∀ b : Back U α, (∀ e ∈ ds, S.ins e.unit = b.ins ∧ S.outs e.unit = b.outs) →
    b.queue.length + ds.length ≤ cap → b.run S P cap (ds.map .set) = { b with queue := b.queue ++ ds } := by
  induction ds with
  | nil => intro b _ _; simp [Back.run]
  | cons d ds ih =>
    intro b hf hc
    simp only [List.length_cons] at hc
    have : b.set S cap d = { b with queue := b.queue ++ [d] } := by
      unfold Back.set
      rw [if_pos (hf d (by simp)), if_pos (by omega)]
    simp only [List.map_cons, Back.run, List.foldl_cons, Back.step]
    rw [this]
    refine (ih { b with queue := b.queue ++ [d] } (fun e he => hf e (by simp [he])) (by simp; omega)).trans ?_
    simp

theorem sets_heard (S : Units U α) (P : Proc U α) (cap : Nat) (ds : List (Upd U α)) (cs : List (Call U α)) : ∀ b : Back U α,
    b.heard S P cap (ds.map .set ++ cs) = (b.run S P cap (ds.map .set)).heard S P cap cs := by
  induction ds with
  | nil => intro b; rfl
  | cons d ds ih => intro b; exact ih _

theorem Fading.receive {S : Units U ℝ} {ins outs : Nat} {sr : ℝ} {f : Fade} {time : ℝ} {k : ℕ} {u n : U} {w : Option (Upd U ℝ)} {b : Back U ℝ}
    (h : Fading ins outs sr f time k u n w b) (d : Upd U ℝ) : Fading ins outs sr f time k u n (some d) (b.receive S d) := by
  unfold Back.receive
  rw [h.next]
  exact ⟨h.ins, h.outs, h.sr, h.current, rfl, h.phase, h.time, h.fade, rfl, fun e he => by cases he; exact ⟨rfl, rfl⟩, h.queue⟩

section
variable {S : Units U ℝ} (hA : S.toArith = realArith)
include hA

theorem tick_state {ins outs : Nat} {sr : ℝ} {f : Fade} {time : ℝ} {k : ℕ} {u n : U} {w : Option (Upd U ℝ)} {b : Back U ℝ}
    (hT : 0 < time * sr) (h : Fading ins outs sr f time k u n w b) (x : List ℝ) :
    (b.tick' S x).2 = List.zipWith (fun a b => a * realArith.fadeAt f (1 - k / (time * sr)) + b * realArith.fadeAt f (k / (time * sr)))
      (S.utick u x).2 (S.utick n x).2 ∧
    (((k + 1 : ℕ) < time * sr) → Fading ins outs sr f time (k + 1) (S.utick u x).1 (S.utick n x).1 w (b.tick' S x).1) ∧
    (time * sr ≤ (k + 1 : ℕ) → Sim (b.tick' S x).1 (Back.ready S ins outs sr (S.utick n x).1 w)) := by
  obtain ⟨i, o, r, c, n', f', t, p, l, lf, lt, q⟩ := b
  obtain ⟨h1, h2, h3, h4, h5, h6, h7, h8, h9, h10, h11⟩ := h
  simp only at h1 h2 h3 h4 h5 h6 h7 h8 h9 h10 h11
  subst h1 h2 h3 h4 h5 h6 h7 h8 h9 h11
  have hp : S.add (k / (t * r)) (S.div S.one (S.mul t r)) = ((k + 1 : ℕ) : ℝ) / (t * r) := by
    rw [hA]; show (k : ℝ) / (t * r) + 1 / (t * r) = _; push_cast; ring
  have hge : S.ge (((k + 1 : ℕ) : ℝ) / (t * r)) S.one = true ↔ t * r ≤ (k + 1 : ℕ) := by
    rw [hA]
    show (decide ((1 : ℝ) ≤ _)) = true ↔ _
    rw [decide_eq_true_iff, le_div_iff₀ hT, one_mul]
  simp only [Back.tick', hp]
  refine ⟨?_, fun hk => ?_, fun hk => ?_⟩
  · rw [hA]; rfl
  · rw [if_neg (by rw [hge]; exact not_le.2 hk)]
    exact ⟨rfl, rfl, rfl, rfl, rfl, rfl, rfl, rfl, rfl, h10, rfl⟩
  · rw [if_pos (hge.2 hk)]
    cases w with
    | none => exact ⟨rfl, rfl, rfl, rfl, rfl, rfl, rfl, fun hn => Bool.noConfusion hn, fun hn => Bool.noConfusion hn⟩
    | some d => exact ⟨rfl, rfl, rfl, rfl, rfl, rfl, rfl, fun _ => ⟨rfl, (h10 d rfl).2, (h10 d rfl).1⟩, fun hn => Bool.noConfusion hn⟩

theorem block_state (P : Proc U ℝ) {ins outs : Nat} {sr : ℝ} {f : Fade} {time : ℝ} {k : ℕ} {u n : U} {w : Option (Upd U ℝ)} {b : Back U ℝ}
    (hT : 0 < time * sr) (h : Fading ins outs sr f time k u n w b) (size : ℕ) (x old tmp : CBuf ℝ) :
    (∀ c j, c < outs → j < size → (b.process' S P size x old tmp).2 c j =
      if k + j < ⌊time * sr⌋₊ then (P u size x old).2 c j * realArith.fadeAt f (1 - (k + j : ℕ) / (time * sr)) +
        (P n size x tmp).2 c j * realArith.fadeAt f ((k + j : ℕ) / (time * sr))
      else (P n size x tmp).2 c j) ∧
    (k + size < ⌊time * sr⌋₊ → Fading ins outs sr f time (k + size) (P u size x old).1 (P n size x tmp).1 w (b.process' S P size x old tmp).1) ∧
    (⌊time * sr⌋₊ ≤ k + size → Sim (b.process' S P size x old tmp).1 (Back.ready S ins outs sr (P n size x tmp).1 w)) := by
  obtain ⟨i, o, r, c, n', f', t, p, l, lf, lt, q⟩ := b
  obtain ⟨h1, h2, h3, h4, h5, h6, h7, h8, h9, h10, h11⟩ := h
  simp only at h1 h2 h3 h4 h5 h6 h7 h8 h9 h10 h11
  subst h1 h2 h3 h4 h5 h6 h7 h8 h9 h11
  have hleft : S.toNat (S.mul (S.mul (S.sub S.one (k / (t * r))) t) r) = ⌊t * r⌋₊ - k := by
    rw [hA]
    show ⌊(1 - (k : ℝ) / (t * r)) * t * r⌋₊ = _
    rw [← Nat.floor_sub_natCast]
    congr 1
    have : t * r ≠ 0 := hT.ne'
    rw [mul_assoc, sub_mul, div_mul_cancel₀ _ this, one_mul]
  have hseq : ∀ j : ℕ, fadeSeq S.toArith (k / (t * r)) (S.div S.one (S.mul t r)) j = ((k + j : ℕ) : ℝ) / (t * r) := by
    intro j; rw [hA, fadeSeq_real]; show (k : ℝ) / (t * r) + j * (1 / (t * r)) = _; push_cast; ring
  have hph : ∀ j : ℕ, S.add (k / (t * r)) (S.div (S.ofNat j) (S.mul t r)) = ((k + j : ℕ) : ℝ) / (t * r) := by
    intro j; rw [hA]; show (k : ℝ) / (t * r) + j / (t * r) = _; push_cast; ring
  simp only [Back.process', hleft, hseq, hph]
  refine ⟨fun c j hc hj => ?_, fun hk => ?_, fun hk => ?_⟩
  · by_cases hkj : k + j < ⌊t * r⌋₊
    · have hm : j < min size (⌊t * r⌋₊ - k) := by omega
      rw [if_pos ⟨hc, hm⟩, if_pos ⟨hc, hm⟩, if_pos hkj, hA]; rfl
    · have hm : ¬ (c < o ∧ j < min size (⌊t * r⌋₊ - k)) := by omega
      rw [if_neg hm, if_pos ⟨hc, hj⟩, if_neg hkj]
  · rw [if_neg (by omega), show min size (⌊t * r⌋₊ - k) = size by omega]
    exact ⟨rfl, rfl, rfl, rfl, rfl, rfl, rfl, rfl, rfl, h10, rfl⟩
  · rw [if_pos (by omega)]
    cases w with
    | none => exact ⟨rfl, rfl, rfl, rfl, rfl, rfl, rfl, fun hn => Bool.noConfusion hn, fun hn => Bool.noConfusion hn⟩
    | some d => exact ⟨rfl, rfl, rfl, rfl, rfl, rfl, rfl, fun _ => ⟨rfl, (h10 d rfl).2, (h10 d rfl).1⟩, fun hn => Bool.noConfusion hn⟩

/-- A crossfade under way: the messages received by the next tick or block included. -/
theorem fading_run (P : Proc U ℝ) (cap : Nat) {ins outs : Nat} {sr : ℝ} {f : Fade} {time : ℝ} (hT : 0 < time * sr) (q : List (Call U ℝ)) :
    ∀ {k m : ℕ} {u n : U} {w : Option (Upd U ℝ)} {b : Back U ℝ}, Fading ins outs sr f time k u n w (b.handle S) → b.queue.length ≤ m →
      Within (time * sr) k q → Fits S ins outs q → Roomy cap m q →
      Fading ins outs sr f time (k + (q.map count).sum) (drive S P (fun old _ => old) q u) (drive S P (fun _ tmp => tmp) q n)
        ((waiting q).or w) ((b.run S P cap q).handle S) := by
  induction q with
  | nil => intro k m u n w b h _ _ _ _; simpa [drive, waiting, Back.run] using h
  | cons c q ih =>
    intro k m u n w b h hm hw hf hr
    have hf' : Fits S ins outs q := fun d hd => hf d (List.mem_cons_of_mem _ hd)
    have hrun : ∀ c, b.run S P cap (c :: q) = (b.step S P cap c).run S P cap q := fun c => rfl
    have hfl := handle_fields S b
    cases c with
    | set d =>
      have hset := handle_set S cap b d (by have := hf d (by simp); rw [← hfl.2.2.2.1, ← hfl.2.2.1, h.ins, h.outs]; exact this) (lt_of_le_of_lt hm hr.1)
      have hq : (b.set S cap d).queue.length ≤ m + 1 := by
        unfold Back.set
        split
        · split
          · simpa using hm
          · omega
        · omega
      have := ih (b := b.set S cap d) (m := m + 1) (by rw [hset]; exact h.receive d) hq hw hf' hr.2
      rw [hrun]
      simp only [List.map_cons, List.sum_cons, count, Nat.zero_add, waiting]
      cases hwq : waiting q <;> rw [hwq] at this <;> exact this
    | tick x =>
      obtain ⟨_, h2, _⟩ := tick_state hA hT h x
      have hs := h2 hw.1
      have := ih (b := b.step S P cap (.tick x)) (m := 0) (by rw [handle_empty S (b.step S P cap (.tick x)) hs.queue]; exact hs) (by rw [show (b.step S P cap (.tick x)).queue = [] from hs.queue]; simp) hw.2 hf' hr
      simp only [List.map_cons, List.sum_cons, count, ← Nat.add_assoc]
      exact this
    | block size x old tmp =>
      obtain ⟨_, h2, _⟩ := block_state hA P hT h size x old tmp
      have hs := h2 hw.1
      have := ih (b := b.step S P cap (.block size x old tmp)) (m := 0) (by rw [handle_empty S (b.step S P cap (.block size x old tmp)) hs.queue]; exact hs)
        (by rw [show (b.step S P cap (.block size x old tmp)).queue = [] from hs.queue]; simp) hw.2 hf' hr
      simp only [List.map_cons, List.sum_cons, count, ← Nat.add_assoc]
      exact this
    | reset => exact hw.elim
    | setRate r => exact hw.elim

/-- The state of a slot that has received `d`, in the course of the crossfade. -/
theorem ready_run (P : Proc U ℝ) (cap : Nat) {ins outs : Nat} {sr : ℝ} (u : U) (d : Upd U ℝ) (hT : 0 < d.time * sr) (q : List (Call U ℝ))
    (hw : Within (d.time * sr) 0 q) (hf : Fits S ins outs q) (hr : Roomy cap 0 q) :
    Fading ins outs sr d.fade d.time (q.map count).sum (drive S P (fun old _ => old) q u) (drive S P (fun _ tmp => tmp) q d.unit)
      (waiting q) (((Back.ready S ins outs sr u (some d)).run S P cap q).handle S) := by
  have h0 : Fading ins outs sr d.fade d.time 0 u d.unit none ((Back.ready S ins outs sr u (some d)).handle S) := by
    rw [handle_empty S _ rfl]
    refine ⟨rfl, rfl, rfl, rfl, rfl, ?_, rfl, rfl, rfl, fun e he => (Option.not_mem_none e he).elim, rfl⟩
    simp only [Back.ready, Back.resting, hA]
    show (0 : ℝ) = _
    simp
  have := fading_run hA P cap hT q h0 (m := 0) (by simp [Back.ready, Back.resting]) hw hf hr
  rw [Nat.zero_add] at this
  cases hwq : waiting q <;> rw [hwq] at this <;> exact this

end

theorem waiting_append (q : List (Call U ℝ)) {c : Call U ℝ} (hc : (Runs c).isSome) : waiting (q ++ [c]) = waiting q := by
  induction q with
  | nil => cases c <;> first | rfl | exact Bool.noConfusion hc
  | cons e q ih =>
    cases e with
    | set d => simp only [List.cons_append, waiting, ih]
    | tick x => exact ih
    | block size x old tmp => exact ih
    | reset => exact ih
    | setRate r => exact ih

theorem run_empty (S : Units U ℝ) (P : Proc U ℝ) (cap : Nat) {b : Back U ℝ} (q : List (Call U ℝ)) {c : Call U ℝ} (hc : (Runs c).isSome) :
    (b.run S P cap (q ++ [c])).handle S = b.run S P cap (q ++ [c]) := by
  refine handle_empty S _ ?_
  rw [show b.run S P cap (q ++ [c]) = (b.run S P cap q).step S P cap c by simp only [Back.run, List.foldl_append]; rfl]
  cases c with
  | tick x => exact (tick'_fields S _ x).1.trans (handle_fields S _).1
  | block size x old tmp => exact (process'_fields S P _ size x old tmp).1.trans (handle_fields S _).1
  | set d => exact Bool.noConfusion hc
  | reset => exact Bool.noConfusion hc
  | setRate r => exact Bool.noConfusion hc

/-! ## Theorems -/

section
variable {S : Units U ℝ}

/-- **C25** A new slot plays its unit, at the default sample rate. -/
theorem C25_new (S : Units U α) (sr : α) (u : U) : Back.new S sr u = .resting S (S.ins u) (S.outs u) sr (S.setSR sr u) := rfl

/-- **C25** While nothing is set, the output of a slot is the output of its unit: nothing is added, left out or delayed. -/
theorem C25_resting (S : Units U α) (P : Proc U α) (cap ins outs : Nat) (sr : α) (u : U) :
    (∀ x, ((Back.resting S ins outs sr u).tick S x).2 = (S.utick u x).2 ∧
      (Back.resting S ins outs sr u).step S P cap (.tick x) = .resting S ins outs sr (S.utick u x).1) ∧
    (∀ size x old tmp, ((Back.resting S ins outs sr u).process S P size x old tmp).2 = (P u size x old).2 ∧
      (Back.resting S ins outs sr u).step S P cap (.block size x old tmp) = .resting S ins outs sr (P u size x old).1) ∧
    (Back.resting S ins outs sr u).step S P cap .reset = .resting S ins outs sr (S.reset u) ∧
    ∀ r, (Back.resting S ins outs sr u).step S P cap (.setRate r) = .resting S ins outs r (S.setSR r u) :=
  ⟨fun _ => ⟨rfl, rfl⟩, fun _ _ _ _ => ⟨rfl, rfl⟩, rfl, fun _ => rfl⟩

/-- **C25** A unit that is set is received with the next tick or block. Of several, the first is crossfaded to, and the last of the others waits. -/
theorem C25_received (S : Units U α) (P : Proc U α) (cap ins outs : Nat) (sr : α) (u : U) (d : Upd U α) (hd : S.ins d.unit = ins ∧ S.outs d.unit = outs)
    (ds : List (Upd U α)) (hds : ∀ e ∈ ds, S.ins e.unit = ins ∧ S.outs e.unit = outs) (hc : ds.length < cap) (c : Call U α)
    (hp : (∃ x, c = .tick x) ∨ ∃ size x old tmp, c = .block size x old tmp) (cs : List (Call U α)) :
    (Back.resting S ins outs sr u).heard S P cap (.set d :: ds.map .set ++ c :: cs) =
      (Back.ready S ins outs sr u (some d)).heard S P cap (ds.map .set ++ c :: cs) := by
  have h1 := sets_heard S P cap (d :: ds) (c :: cs) (Back.resting S ins outs sr u)
  have h2 := sets_heard S P cap ds (c :: cs) (Back.ready S ins outs sr u (some d))
  rw [sets_run S P cap (d :: ds) _ (fun e he => (List.mem_cons.1 he).elim (fun h => h ▸ hd) (hds e)) (by simp [Back.resting]; omega)] at h1
  rw [sets_run S P cap ds _ hds (by simp [Back.ready, Back.resting]; omega)] at h2
  refine h1.trans (Eq.trans ?_ h2.symm)
  have hh : ({ Back.resting S ins outs sr u with queue := (Back.resting S ins outs sr u).queue ++ d :: ds } : Back U α).handle S =
      ({ Back.ready S ins outs sr u (some d) with queue := (Back.ready S ins outs sr u (some d)).queue ++ ds } : Back U α).handle S := by
    rw [handle_with, handle_with]
    rfl
  rcases hp with ⟨x, rfl⟩ | ⟨size, x, old, tmp, rfl⟩
  · simp only [Back.heard, Back.step, Back.tick, hh]
  · simp only [Back.heard, Back.step, Back.process, hh]

/-- **C25** The course of a crossfade from `u` to the unit of `d`, after any ticks, blocks and further `set`s in which it has not ended. Both units have
been run by these calls from where they were; the samples of the next tick or block are a mixture with weights given by the fade curve at the position
`K / T`; samples of a block after the end are those of the new unit alone. -/
theorem C25_crossfade (hA : S.toArith = realArith) (P : Proc U ℝ) (cap ins outs : Nat) (sr : ℝ) (u : U) (d : Upd U ℝ) (hT : 0 < d.time * sr)
    (q : List (Call U ℝ)) (hw : Within (d.time * sr) 0 q) (hf : Fits S ins outs q) (hr : Roomy cap 0 q) :
    let b := (Back.ready S ins outs sr u (some d)).run S P cap q
    let T := d.time * sr
    let K := (q.map count).sum
    let old := drive S P (fun old _ => old) q u
    let new := drive S P (fun _ tmp => tmp) q d.unit
    (∀ x, (b.tick S x).2 = List.zipWith (fun a b => a * realArith.fadeAt d.fade (1 - K / T) + b * realArith.fadeAt d.fade (K / T))
      (S.utick old x).2 (S.utick new x).2) ∧
    ∀ size x out tmp c j, c < outs → j < size → (b.process S P size x out tmp).2 c j =
      if K + j < ⌊T⌋₊ then (P old size x out).2 c j * realArith.fadeAt d.fade (1 - (K + j : ℕ) / T) +
        (P new size x tmp).2 c j * realArith.fadeAt d.fade ((K + j : ℕ) / T)
      else (P new size x tmp).2 c j := by
  intro b T K old new
  have h := ready_run hA P cap u d hT q hw hf hr
  exact ⟨fun x => (tick_state hA hT h x).1, fun size x out tmp => (block_state hA P hT h size x out tmp).1⟩

/-- **C25** The end of a crossfade: after the tick or block that reaches it, the slot is, for all that can be heard of it, a slot that plays the new unit,
from where it is, and that has received the unit set last during the crossfade, if any. -/
theorem C25_crossfade_end (hA : S.toArith = realArith) (P : Proc U ℝ) (cap ins outs : Nat) (sr : ℝ) (u : U) (d : Upd U ℝ) (hT : 0 < d.time * sr)
    (q : List (Call U ℝ)) (hw : Within (d.time * sr) 0 q) (hf : Fits S ins outs q) (hr : Roomy cap 0 q) (c : Call U ℝ)
    (hc : Ends (d.time * sr) (q.map count).sum c) (cs : List (Call U ℝ)) :
    ((Back.ready S ins outs sr u (some d)).run S P cap (q ++ [c])).heard S P cap cs =
      (Back.ready S ins outs sr (drive S P (fun _ tmp => tmp) (q ++ [c]) d.unit) (waiting q)).heard S P cap cs := by
  have h := ready_run hA P cap u d hT q hw hf hr
  have hdr : ∀ (l : List (Call U ℝ)) (v : U), drive S P (fun _ tmp => tmp) (l ++ [c]) v = drive S P (fun _ tmp => tmp) [c] (drive S P (fun _ tmp => tmp) l v) := by
    intro l
    induction l with
    | nil => intro v; rfl
    | cons e l ih => intro v; cases e <;> exact ih _
  refine Sim.heard S P cap cs ?_
  rw [hdr, show (Back.ready S ins outs sr u (some d)).run S P cap (q ++ [c]) = ((Back.ready S ins outs sr u (some d)).run S P cap q).step S P cap c by
    simp only [Back.run, List.foldl_append]; rfl]
  cases c with
  | tick x => exact (tick_state hA hT h x).2.2 hc
  | block size x old tmp => exact (block_state hA P hT h size x old tmp).2.2 hc
  | set d => exact hc.elim
  | reset => exact hc.elim
  | setRate r => exact hc.elim

/-- **C25** A reset during a crossfade ends it: the slot then plays, from its reset state, the unit set last among those it has received. -/
theorem C25_crossfade_reset (hA : S.toArith = realArith) (P : Proc U ℝ) (cap ins outs : Nat) (sr : ℝ) (u : U) (d : Upd U ℝ) (hT : 0 < d.time * sr)
    (q : List (Call U ℝ)) (c : Call U ℝ) (hc : (Runs c).isSome) (hw : Within (d.time * sr) 0 (q ++ [c])) (hf : Fits S ins outs (q ++ [c]))
    (hr : Roomy cap 0 (q ++ [c])) (cs : List (Call U ℝ)) :
    ((Back.ready S ins outs sr u (some d)).run S P cap (q ++ [c])).heard S P cap (.reset :: cs) =
      (Back.resting S ins outs sr (S.reset (match waiting q with
        | some e => e.unit
        | none => drive S P (fun _ tmp => tmp) (q ++ [c]) d.unit))).heard S P cap cs := by
  have h := ready_run hA P cap u d hT (q ++ [c]) hw hf hr
  rw [waiting_append q hc, run_empty S P cap q hc] at h
  refine Sim.heard S P cap cs ?_
  generalize (Back.ready S ins outs sr u (some d)).run S P cap (q ++ [c]) = b at h
  obtain ⟨h1, h2, h3, h4, h5, h6, h7, h8, h9, h10, h11⟩ := h
  simp only [Back.step, Back.reset, h9, h5]
  cases waiting q with
  | none => exact ⟨h1, h2, h3, rfl, rfl, rfl, h11, fun hn => Bool.noConfusion hn, fun hn => Bool.noConfusion hn⟩
  | some e => exact ⟨h1, h2, h3, rfl, rfl, rfl, h11, fun hn => Bool.noConfusion hn, fun hn => Bool.noConfusion hn⟩

/-- **C25** A change of the sample rate during a crossfade reaches all units the slot has received: those being heard, and the one that waits. -/
theorem C25_crossfade_rate (hA : S.toArith = realArith) (P : Proc U ℝ) (cap ins outs : Nat) (sr : ℝ) (u : U) (d : Upd U ℝ) (hT : 0 < d.time * sr)
    (q : List (Call U ℝ)) (c : Call U ℝ) (hc : (Runs c).isSome) (hw : Within (d.time * sr) 0 (q ++ [c])) (hf : Fits S ins outs (q ++ [c]))
    (hr : Roomy cap 0 (q ++ [c])) (r : ℝ) :
    let b := (Back.ready S ins outs sr u (some d)).run S P cap (q ++ [c])
    let T := d.time * sr
    let K := ((q ++ [c]).map count).sum
    let old := drive S P (fun old _ => old) (q ++ [c]) u
    let new := drive S P (fun _ tmp => tmp) (q ++ [c]) d.unit
    (∀ x, ((b.setRate S r).tick S x).2 = List.zipWith (fun a b => a * realArith.fadeAt d.fade (1 - K / T) + b * realArith.fadeAt d.fade (K / T))
      (S.utick (S.setSR r old) x).2 (S.utick (S.setSR r new) x).2) ∧
    ∀ cs, b.heard S P cap (.setRate r :: .reset :: cs) = (Back.resting S ins outs r (S.reset (S.setSR r (match waiting q with
      | some e => e.unit
      | none => new)))).heard S P cap cs := by
  intro b T K old new
  have h := ready_run hA P cap u d hT (q ++ [c]) hw hf hr
  rw [waiting_append q hc, run_empty S P cap q hc] at h
  change Fading ins outs sr d.fade d.time K old new (waiting q) b at h
  have hz : T = d.time * sr := rfl
  clear_value b K old new
  obtain ⟨h1, h2, h3, h4, h5, h6, h7, h8, h9, h10, h11⟩ := h
  refine ⟨fun x => ?_, fun cs => Sim.heard S P cap cs ?_⟩
  · rw [Back.tick, handle_empty S _ (by exact h11)]
    simp only [Back.tick', Back.setRate, h5, h4, h6, h8, Option.map_some, hA, hz]
    rfl
  · simp only [Back.step, Back.reset, Back.setRate, h9, h5]
    cases waiting q with
    | none => exact ⟨h1, h2, rfl, rfl, rfl, rfl, h11, fun hn => Bool.noConfusion hn, fun hn => Bool.noConfusion hn⟩
    | some e => exact ⟨h1, h2, rfl, rfl, rfl, rfl, h11, fun hn => Bool.noConfusion hn, fun hn => Bool.noConfusion hn⟩

end

/-! ## Non-vacuity -/

/-- A crossfade of 4 samples from a constant 0 to a constant 10, during which 20 and 30 are set: half way through it is 5, and after it the slot is one
that plays 10 and has received 30. -/
noncomputable def course : List (Call (ℕ × ℝ) ℝ) := [.tick [], .set ⟨.power, 1, (2, 20)⟩, .set ⟨.smooth, 2, (3, 30)⟩, .tick []]

theorem course_within : Within (2 * 2) 0 course := by
  simp [course, Within]; norm_num

example : (((Back.ready labUnits 0 1 2 (0, 0) (some ⟨.smooth, 2, (1, 10)⟩)).run labUnits labProc 1024 course).tick labUnits []).2 = [5] := by
  refine ((C25_crossfade rfl labProc 1024 0 1 2 (0, 0) ⟨.smooth, 2, (1, 10)⟩ (by norm_num) course course_within (fun d _ => ⟨rfl, rfl⟩)
    (by simp [course, Roomy])).1 []).trans ?_
  simp only [course, drive, labUnits, List.map_cons, List.map_nil, count, List.sum_cons, List.sum_nil, List.zipWith_cons_cons, List.zipWith_nil_left,
    realArith, Math.smooth5]
  norm_num

example (cs : List (Call (ℕ × ℝ) ℝ)) : ((Back.ready labUnits 0 1 2 (0, 0) (some ⟨.smooth, 2, (1, 10)⟩)).run labUnits labProc 1024
    (course ++ [.block 2 (fun _ _ => 0) (fun _ _ => 0) (fun _ _ => 0)])).heard labUnits labProc 1024 cs =
    (Back.ready labUnits 0 1 2 (1, 10) (some ⟨.smooth, 2, (3, 30)⟩)).heard labUnits labProc 1024 cs := by
  refine C25_crossfade_end rfl labProc 1024 0 1 2 (0, 0) ⟨.smooth, 2, (1, 10)⟩ (by norm_num) course course_within (fun d _ => ⟨rfl, rfl⟩)
    (by simp [course, Roomy]) _ ?_ cs
  simp only [Ends, course, List.map_cons, List.map_nil, count, List.sum_cons, List.sum_nil]
  norm_num

end Fundsp.Slot
