import Verif.Adapt.Props
import Verif.Core.Simd

/-!
# C125: settings and sample rates in `BlockRateAdapter`

`BlockRateAdapter::set`, `set_sample_rate` and `ping` pass changes on to the unit at once (`/repo/src/audiounit.rs:592-594`, `627-629`, `639-641`), but the
samples that are buffered stay as they are. `C` is the type of changes: settings, sample rates and hashes.
-/

namespace Fundsp.Adapt
variable {α : Type} {o : Nat} {C : Type}

/-! ## Model -/

/-- `BlockRateAdapter::set`, `set_sample_rate`, `ping`: `audiounit.rs:592-594`, `627-629`, `639-641`. `act` is what the unit does. -/
def Rate.change {n : Node α 0 o} (act : C → n.σ → n.σ) (c : C) (s : Rate n) : Rate n := { s with unit := act c s.unit }

/-- Calls on a `BlockRateAdapter`. -/
inductive LiveCall (α : Type) (o : Nat) (C : Type)
  | tick (g : Garb α)
  | block (size : Nat) (g : Nat → Garb α) (old : Buf α o)
  | change (c : C)
  | reset

/-- State after a history, and the frames returned since the last reset. -/
def liveExec {n : Node α 0 o} (act : C → n.σ → n.σ) : List (LiveCall α o C) → Rate n → List (Frame α o) → Rate n × List (Frame α o)
  | [], s, fs => (s, fs)
  | .tick g :: cs, s, fs => let r := s.tick g; liveExec act cs r.1 (fs ++ [r.2])
  | .block size g old :: cs, s, fs =>
    let r := s.process g size (fun c => c.elim0) old
    liveExec act cs r.1 (fs ++ (List.range size).map r.2.frame)
  | .change c :: cs, s, fs => liveExec act cs (s.change act c) fs
  | .reset :: cs, s, _ => liveExec act cs s.reset []

/-! ## Specification -/

/-- The behaviour of a generator in full blocks, with resets and changes. -/
structure LiveBlocks (n : Node α 0 o) (act : C → n.σ → n.σ) (S : Type) (R : n.σ → S → Prop) (rst : S → S) (chg : C → S → S) (next : S → S)
    (frames : S → Nat → Frame α o) : Prop where
  block : ∀ g s m inp out, R s m → R (n.process g s 64 inp out).1 (next m) ∧ ∀ k, k < 64 → (n.process g s 64 inp out).2.frame k = frames m k
  reset : ∀ s m, R s m → R (n.reset s) (rst m)
  change : ∀ c s m, R s m → R (act c s) (chg c m)

/-- The block with which a change counts that is made after `k` samples: the first one that begins then or later. -/
def blockOf (k : Nat) : Nat := (k + 63) / 64

/-- The generator before block `b`, when it started as `m` and the changes in `log` were made after so many samples. -/
def before {S : Type} (chg : C → S → S) (next : S → S) (m : S) (log : List (Nat × C)) : Nat → S
  | 0 => (log.filter (fun e => blockOf e.1 = 0)).foldl (fun x e => chg e.2 x) m
  | b + 1 => (log.filter (fun e => blockOf e.1 = b + 1)).foldl (fun x e => chg e.2 x) (next (before chg next m log b))

/-- What a user knows: how the generator started after the last reset, the changes since and the number of samples since. -/
structure Hist (S C : Type) where
  start : S
  log : List (Nat × C)
  k : Nat

/-- A history. A reset acts on the generator with all changes. -/
def Hist.run {S : Type} (rst : S → S) (chg : C → S → S) (next : S → S) : List (LiveCall α o C) → Hist S C → Hist S C
  | [], h => h
  | .tick _ :: cs, h => Hist.run rst chg next cs { h with k := h.k + 1 }
  | .block size _ _ :: cs, h => Hist.run rst chg next cs { h with k := h.k + size }
  | .change c :: cs, h => Hist.run rst chg next cs { h with log := h.log ++ [(h.k, c)] }
  | .reset :: cs, h => Hist.run rst chg next cs ⟨rst (before chg next h.start h.log (blockOf h.k)), [], 0⟩

/-- Sample `j`. -/
def Hist.frame {S : Type} (chg : C → S → S) (next : S → S) (frames : S → Nat → Frame α o) (h : Hist S C) (j : Nat) : Frame α o :=
  frames (before chg next h.start h.log (j / 64)) (j % 64)

/-! ## Lemmas -/

section
variable {S : Type} {chg : C → S → S} {next : S → S}

theorem before_snoc (m : S) (log : List (Nat × C)) (k : Nat) (c : C) :
    (∀ b, b < blockOf k → before chg next m (log ++ [(k, c)]) b = before chg next m log b) ∧
    before chg next m (log ++ [(k, c)]) (blockOf k) = chg c (before chg next m log (blockOf k)) := by
  have lt : ∀ b, b < blockOf k → before chg next m (log ++ [(k, c)]) b = before chg next m log b := by
    intro b
    induction b with
    | zero =>
      intro h
      have : ¬ blockOf k = 0 := by omega
      simp [before, List.filter_append, this]
    | succ b ih =>
      intro h
      have : ¬ blockOf k = b + 1 := by omega
      simp [before, List.filter_append, this, ih (by omega)]
  refine ⟨lt, ?_⟩
  cases hb : blockOf k with
  | zero => simp [before, List.filter_append, hb]
  | succ b => simp [before, List.filter_append, hb, lt b (by omega)]

theorem before_nil (m : S) : before chg next m ([] : List (Nat × C)) (blockOf 0) = m := by
  rw [show blockOf 0 = 0 by simp [blockOf]]; simp [before]

theorem before_next (m : S) (log : List (Nat × C)) (b : Nat) (h : ∀ e ∈ log, e.1 ≤ 64 * b) :
    before chg next m log (b + 1) = next (before chg next m log b) := by
  have : log.filter (fun e => blockOf e.1 = b + 1) = [] := by
    rw [List.filter_eq_nil_iff]
    intro e he
    have := h e he
    have hne : ¬ blockOf e.1 = b + 1 := by unfold blockOf; omega
    simp [hne]
  rw [before, this]
  rfl

variable {n : Node α 0 o} {act : C → n.σ → n.σ} {R : n.σ → S → Prop} {rst : S → S} {frames : S → Nat → Frame α o}

/-- Adapter state. -/
structure LiveAt (R : n.σ → S → Prop) (chg : C → S → S) (next : S → S) (frames : S → Nat → Frame α o) (h : Hist S C) (s : Rate n) : Prop where
  log : ∀ e ∈ h.log, e.1 ≤ h.k
  unit : R s.unit (before chg next h.start h.log (blockOf h.k))
  index : (h.k % 64 = 0 ∧ s.index = 64) ∨ (h.k % 64 ≠ 0 ∧ s.index = h.k % 64 ∧ ∀ j, j < 64 → s.buffer.frame j = frames (before chg next h.start h.log (h.k / 64)) j)

/-- After a refill. -/
theorem live_refill (hF : LiveBlocks n act S R rst chg next frames) {h : Hist S C} {s : Rate n} (ha : LiveAt R chg next frames h s) (g : Garb α) (inp : Buf α 0) :
    (s.refill g inp).index = h.k % 64 ∧ R (s.refill g inp).unit (before chg next h.start h.log (h.k / 64 + 1)) ∧
    ∀ j, j < 64 → (s.refill g inp).buffer.frame j = frames (before chg next h.start h.log (h.k / 64)) j := by
  unfold Rate.refill
  rcases ha.index with ⟨h1, h2⟩ | ⟨h1, h2, h3⟩
  · rw [if_pos h2]
    have hb : blockOf h.k = h.k / 64 := by unfold blockOf; omega
    obtain ⟨a, c⟩ := hF.block g s.unit _ inp s.buffer (hb ▸ ha.unit)
    refine ⟨h1.symm, ?_, c⟩
    rw [before_next _ _ _ (fun e he => by have := ha.log e he; omega)]
    exact a
  · rw [if_neg (by omega)]
    refine ⟨h2, ?_, h3⟩
    have hb : blockOf h.k = h.k / 64 + 1 := by unfold blockOf; omega
    rw [← hb]; exact ha.unit

/-- After `d` of the buffered samples. -/
theorem live_take {h : Hist S C} {s : Rate n} (hl : ∀ e ∈ h.log, e.1 ≤ h.k) (h1 : s.index = h.k % 64)
    (h2 : R s.unit (before chg next h.start h.log (h.k / 64 + 1))) (h3 : ∀ j, j < 64 → s.buffer.frame j = frames (before chg next h.start h.log (h.k / 64)) j)
    {d : Nat} (hd : 0 < d) (hd' : d ≤ 64 - s.index) : LiveAt R chg next frames { h with k := h.k + d } { s with index := s.index + d } := by
  have hb : blockOf (h.k + d) = h.k / 64 + 1 := by unfold blockOf; omega
  refine ⟨fun e he => by have := hl e he; show e.1 ≤ h.k + d; omega, by show R s.unit (before chg next h.start h.log (blockOf (h.k + d))); rw [hb]; exact h2, ?_⟩
  by_cases hz : (h.k + d) % 64 = 0
  · exact .inl ⟨hz, by show s.index + d = 64; omega⟩
  · refine .inr ⟨hz, by show s.index + d = (h.k + d) % 64; omega, ?_⟩
    show ∀ j, j < 64 → s.buffer.frame j = frames (before chg next h.start h.log ((h.k + d) / 64)) j
    rw [show (h.k + d) / 64 = h.k / 64 by omega]
    exact h3

theorem live_loop (hF : LiveBlocks n act S R rst chg next frames) (g : Nat → Garb α) (inp : Buf α 0) :
    ∀ (left pos : Nat) (h : Hist S C) (s : Rate n) (out : Buf α o), LiveAt R chg next frames h s →
      LiveAt R chg next frames { h with k := h.k + left } (s.loop g inp left pos out).1 ∧
      (∀ t, t < left → (s.loop g inp left pos out).2.frame (pos + t) = h.frame chg next frames (h.k + t)) ∧
      (∀ t, t < pos → (s.loop g inp left pos out).2.frame t = out.frame t) := by
  intro left
  induction left using Nat.strongRecOn with
  | ind left ih =>
    intro pos h s out ha
    rw [Rate.loop]
    by_cases hl : 0 < left
    · rw [if_pos hl]
      obtain ⟨h1, h2, h3⟩ := live_refill hF ha (g pos) inp
      simp only
      generalize s.refill (g pos) inp = s' at *
      have hi : s'.index < 64 := by omega
      have hk0 : 0 < min left (64 - s'.index) := by omega
      have hkl : min left (64 - s'.index) ≤ left := Nat.min_le_left _ _
      have hki : min left (64 - s'.index) ≤ 64 - s'.index := Nat.min_le_right _ _
      generalize min left (64 - s'.index) = d at *
      rw [dif_pos hk0]
      obtain ⟨a, c, e⟩ := ih (left - d) (by omega) (pos + d) { h with k := h.k + d } { s' with index := s'.index + d }
        (fun c t => if pos ≤ t ∧ t < pos + d then s'.buffer c (s'.index + (t - pos)) else out c t) (live_take ha.log h1 h2 h3 hk0 hki)
      dsimp only at a c
      rw [show h.k + d + (left - d) = h.k + left by omega] at a
      refine ⟨a, ?_, ?_⟩
      · intro t ht
        by_cases htd : t < d
        · rw [e (pos + t) (by omega)]
          have hj := h3 (s'.index + t) (by omega)
          unfold Hist.frame
          rw [show (h.k + t) / 64 = h.k / 64 by omega, show (h.k + t) % 64 = s'.index + t by omega, ← hj]
          funext ch
          simp [Buf.frame, htd]
        · have := c (t - d) (by omega)
          rw [show pos + d + (t - d) = pos + t by omega] at this
          rw [this]
          show Hist.frame chg next frames h (h.k + d + (t - d)) = _
          rw [show h.k + d + (t - d) = h.k + t by omega]
      · intro t ht
        rw [e t (by omega)]
        funext ch
        simp [Buf.frame, show ¬ (pos ≤ t ∧ t < pos + d) by omega]
    · rw [if_neg hl]
      have : left = 0 := by omega
      subst this
      exact ⟨ha, fun t h1 => by omega, fun t _ => rfl⟩

/-! ## C125 -/

/-- **C125** (what is heard): whatever changes are made between ticks, blocks and resets, the samples since the last reset are those of the unit in full
blocks of 64, with each change made to it before the first block that begins at the time of the change or later. Changes made within a block keep their
order, and a reset finds all of them made. -/
theorem C125_live (hF : LiveBlocks n act S R rst chg next frames) (zero : α) (cs : List (LiveCall α o C)) (u : n.σ) (m : S) (hu : R u m) :
    (liveExec act cs (Rate.new n u zero) []).2 =
      (List.range (Hist.run rst chg next cs ⟨m, [], 0⟩).k).map ((Hist.run rst chg next cs ⟨m, [], 0⟩).frame chg next frames) := by
  have key : ∀ (cs : List (LiveCall α o C)) (h : Hist S C) (s : Rate n), LiveAt R chg next frames h s →
      (liveExec act cs s ((List.range h.k).map (h.frame chg next frames))).2 =
        (List.range (Hist.run rst chg next cs h).k).map ((Hist.run rst chg next cs h).frame chg next frames) := by
    intro cs
    induction cs with
    | nil => intro h s ha; rfl
    | cons c cs ih =>
      intro h s ha
      cases c with
      | tick g =>
        obtain ⟨h1, h2, h3⟩ := live_refill hF ha g (fun c => c.elim0)
        have := ih { h with k := h.k + 1 } (s.tick g).1 (live_take ha.log h1 h2 h3 (d := 1) (by omega) (by omega))
        rw [List.range_succ, List.map_append] at this
        simp only [liveExec, Hist.run]
        rw [← this]
        congr 3
        show [(s.refill g _).buffer.frame (s.refill g _).index] = [h.frame chg next frames h.k]
        rw [h3 _ (by omega), h1]
        rfl
      | block size g old =>
        obtain ⟨h1, h2, _⟩ := live_loop hF g (fun c => c.elim0) size 0 h s old ha
        simp only [Nat.zero_add] at h2
        simp only [liveExec, Hist.run, Rate.process]
        have := ih { h with k := h.k + size } _ h1
        rw [List.range_add, List.map_append, List.map_map] at this
        have e : (List.range size).map (s.loop g (fun c => c.elim0) size 0 old).2.frame = (List.range size).map (h.frame chg next frames ∘ fun x => h.k + x) := by
          apply List.map_congr_left
          intro t ht
          exact h2 t (List.mem_range.1 ht)
        rw [e]
        exact this
      | change c =>
        have hb := before_snoc (chg := chg) (next := next) h.start h.log h.k c
        have := ih { h with log := h.log ++ [(h.k, c)] } (s.change act c) ⟨by
            intro e he
            rcases List.mem_append.1 he with he | he
            · exact ha.log e he
            · rw [List.mem_singleton.1 he], by
            show R (act c s.unit) (before chg next h.start (h.log ++ [(h.k, c)]) (blockOf h.k))
            rw [hb.2]; exact hF.change c _ _ ha.unit, by
            rcases ha.index with hi | ⟨i1, i2, i3⟩
            · exact .inl hi
            · refine .inr ⟨i1, i2, ?_⟩
              show ∀ j, j < 64 → s.buffer.frame j = frames (before chg next h.start (h.log ++ [(h.k, c)]) (h.k / 64)) j
              rw [hb.1 _ (show h.k / 64 < blockOf h.k by unfold blockOf; omega)]
              exact i3⟩
        simp only [liveExec, Hist.run]
        rw [← this]
        congr 2
        apply List.map_congr_left
        intro j hj
        have hj := List.mem_range.1 hj
        show frames (before chg next h.start h.log (j / 64)) (j % 64) = frames (before chg next h.start (h.log ++ [(h.k, c)]) (j / 64)) (j % 64)
        rw [hb.1 _ (show j / 64 < blockOf h.k by unfold blockOf; omega)]
      | reset =>
        have := ih ⟨rst (before chg next h.start h.log (blockOf h.k)), [], 0⟩ s.reset ⟨by simp, by
          show R (n.reset s.unit) (before chg next _ [] (blockOf 0)); rw [before_nil]; exact hF.reset _ _ ha.unit, .inl ⟨rfl, rfl⟩⟩
        exact this
  exact key cs ⟨m, [], 0⟩ (Rate.new n u zero) ⟨by simp, by show R u (before chg next m [] (blockOf 0)); rw [before_nil]; exact hu, .inl ⟨rfl, rfl⟩⟩

end

/-- Units that play blocks exactly as single samples. -/
theorem liveBlocks_exact {n : Node α 0 o} (act : C → n.σ → n.σ) (hn : ExactProcess n (fun _ => True)) :
    LiveBlocks n act n.σ Eq n.reset act (fun m => n.ticks.st m (fun _ c => c.elim0) 64) (fun m => n.ticks.out m (fun _ c => c.elim0)) := by
  have hw : ∀ w : Nat → Frame α 0, w = (fun _ c => c.elim0) := by intro w; funext k c; exact c.elim0
  refine ⟨?_, fun s m h => by rw [h], fun c s m h => by rw [h]⟩
  rintro g s m inp out rfl
  have := hn g s 64 inp out (Nat.le_refl _) trivial
  rw [hw inp.frame] at this
  exact this

theorem run_append {S : Type} (rst : S → S) (chg : C → S → S) (next : S → S) : ∀ (cs ds : List (LiveCall α o C)) (h : Hist S C),
    Hist.run rst chg next (cs ++ ds) h = Hist.run rst chg next ds (Hist.run rst chg next cs h)
  | [], ds, h => rfl
  | c :: cs, ds, h => by cases c <;> exact run_append rst chg next cs ds _

/-- Samples in calls that only play. -/
def samples : List (LiveCall α o C) → Nat
  | .tick _ :: cs => samples cs + 1
  | .block size _ _ :: cs => samples cs + size
  | _ :: cs => samples cs
  | [] => 0

/-- Only plays. -/
def Plays (cs : List (LiveCall α o C)) : Prop := ∀ c ∈ cs, (∃ g, c = .tick g) ∨ ∃ size g old, c = .block size g old

theorem run_plays {S : Type} (rst : S → S) (chg : C → S → S) (next : S → S) : ∀ (ps : List (LiveCall α o C)), Plays ps → ∀ h : Hist S C,
    Hist.run rst chg next ps h = { h with k := h.k + samples ps }
  | [], _, h => rfl
  | c :: ps, hp, h => by
    have ih := fun h => run_plays rst chg next ps (fun c hc => hp c (List.mem_cons_of_mem _ hc)) h
    rcases hp c (List.mem_cons_self ..) with ⟨g, rfl⟩ | ⟨size, g, old, rfl⟩
    · simp only [Hist.run, ih, samples]; congr 1; omega
    · simp only [Hist.run, ih, samples]; congr 1; omega

/-- **C125** (latency): a change does not touch the samples up to the end of the block in which it is made, 63 samples at most; without changes pending it
counts at once when it is made between blocks (`C125_live`). -/
theorem C125_latency {n : Node α 0 o} {act : C → n.σ → n.σ} {S : Type} {R : n.σ → S → Prop} {rst : S → S} {chg : C → S → S} {next : S → S} {frames : S → Nat → Frame α o}
    (hF : LiveBlocks n act S R rst chg next frames) (zero : α) (cs ps : List (LiveCall α o C)) (hp : Plays ps) (c : C) (u : n.σ) (m : S) (hu : R u m)
    (k : Nat) (hk : (liveExec act cs (Rate.new n u zero) []).2.length = k) (j : Nat) (hj : j < 64 * ((k + 63) / 64)) :
    (liveExec act (cs ++ .change c :: ps) (Rate.new n u zero) []).2[j]? = (liveExec act (cs ++ ps) (Rate.new n u zero) []).2[j]? := by
  rw [C125_live hF zero _ u m hu] at hk ⊢
  rw [C125_live hF zero _ u m hu, run_append, run_append]
  simp only [List.length_map, List.length_range] at hk
  generalize Hist.run rst chg next cs ⟨m, [], 0⟩ = h at *
  simp only [Hist.run, run_plays rst chg next ps hp]
  simp only [List.getElem?_map]
  by_cases hjk : j < h.k + samples ps
  · simp only [List.getElem?_range hjk, Option.map_some, Hist.frame]
    rw [(before_snoc h.start h.log h.k c).1]
    unfold blockOf; omega
  · simp only [List.getElem?_eq_none (l := List.range (h.k + samples ps)) (by simpa using hjk), Option.map_none]

/-- A generator that plays a number that can be set. -/
abbrev held : Node Int 0 1 := ⟨Int, fun s => s, fun s _ => (s, fun _ => s), fun _ s _ _ _ => (s, fun _ _ => s)⟩

theorem held_live : LiveBlocks held (fun (c : Int) _ => c) Int Eq (fun s => s) (fun c _ => c) (fun s => s) (fun s _ _ => s) :=
  ⟨by rintro g s m inp out rfl; exact ⟨rfl, fun k _ => rfl⟩, fun s m h => h, fun c s m h => rfl⟩

/-- Set after one sample, it plays the old number for 63 more samples. -/
example (g : Nat → Garb Int) (old : Buf Int 1) : (liveExec (n := held) (fun (c : Int) _ => c) [.tick (g 0), .change 5, .block 64 g old] (Rate.new held (3 : Int) 0) []).2 =
    (List.range 65).map (fun j => (fun _ => if j < 64 then 3 else 5 : Frame Int 1)) := by
  rw [C125_live held_live 0 _ (3 : Int) (3 : Int) rfl]
  apply List.map_congr_left
  intro j hj
  have hj : j < 65 := List.mem_range.1 hj
  have h0 : before (fun (c : Int) (_ : Int) => c) (fun s => s) 3 [(1, 5)] 0 = 3 := by decide
  have h1 : before (fun (c : Int) (_ : Int) => c) (fun s => s) 3 [(1, 5)] 1 = 5 := by decide
  show (fun _ => before (fun (c : Int) (_ : Int) => c) (fun s => s) 3 [(1, 5)] (j / 64)) = _
  by_cases h : j < 64
  · rw [show j / 64 = 0 by omega, h0, if_pos h]
  · rw [show j / 64 = 1 by omega, h1, if_neg h]

end Fundsp.Adapt
