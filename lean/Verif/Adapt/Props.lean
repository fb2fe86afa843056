import Verif.Adapt.Model
import Verif.Core.Props
import Mathlib.Logic.Function.Iterate

/-! C16 and C17. -/

namespace Fundsp.Adapt

variable {α : Type}

/-- What `process_big` does, relative to a sample-by-sample machine that the unit implements. -/
theorem bigLoop_spec {i o : Nat} (n : Node α i o) (M : Mealy α i o) (R : n.σ → M.S → Prop) (hI : Implements n M R)
    (inp : Nat → Frame α i) (g : Nat → Garb α) (m : M.S) :
    ∀ (left pos : Nat) (s : Big n) (out : Nat → Frame α o), R s.source (M.st m inp pos) →
      R (bigLoop n inp g left pos s out).1.source (M.st m inp (pos + left)) ∧
      (∀ k, pos ≤ k → k < pos + left → (bigLoop n inp g left pos s out).2 k = M.out m inp k) ∧
      (∀ k, k < pos ∨ pos + left ≤ k → (bigLoop n inp g left pos s out).2 k = out k) := by
  intro left
  induction left using Nat.strongRecOn with
  | ind left ih =>
    intro pos s out hR
    rw [bigLoop]
    by_cases h : 0 < left
    · rw [if_pos h]
      simp only
      have hk : min left 64 ≤ 64 := Nat.min_le_right _ _
      have hk0 : 0 < min left 64 := by omega
      have hkl : min left 64 ≤ left := Nat.min_le_left _ _
      generalize min left 64 = k at *
      obtain ⟨input, hinput⟩ : ∃ input : Buf α i, input = fun c j => if j < k then inp (pos + j) c else s.input c j := ⟨_, rfl⟩
      rw [← hinput]
      obtain ⟨h1, h2⟩ := hI.process (g pos) s.source (M.st m inp pos) k input s.output hk hR
      have hfr : ∀ j, j < k → input.frame j = inp (pos + j) := by
        intro j hj; rw [hinput]; funext c; simp [Buf.frame, hj]
      have hst : M.st (M.st m inp pos) input.frame k = M.st m inp (pos + k) := by
        rw [Mealy.st_add]; exact Mealy.st_congr _ _ _ _ _ (fun j hj => hfr j hj)
      rw [hst] at h1
      obtain ⟨a, b, c⟩ := ih (left - k) (by omega) (pos + k) ⟨_, input, _⟩
        (fun t => if pos ≤ t ∧ t < pos + k then (n.process (g pos) s.source k input s.output).2.frame (t - pos) else out t) h1
      have e : pos + k + (left - k) = pos + left := by omega
      rw [e] at a b c
      refine ⟨a, ?_, ?_⟩
      · intro t ht1 ht2
        by_cases ht : t < pos + k
        · rw [c t (Or.inl ht), if_pos ⟨ht1, ht⟩, h2 (t - pos) (by omega)]
          obtain ⟨d, rfl⟩ : ∃ d, t = pos + d := ⟨t - pos, by omega⟩
          rw [Nat.add_sub_cancel_left, Mealy.out_add]
          exact Mealy.out_congr _ _ _ _ _ (fun j hj => hfr j (by omega))
        · exact b t (by omega) ht2
      · intro t ht
        rw [c t (by omega), if_neg (by omega)]
    · rw [if_neg h]
      have : left = 0 := by omega
      subst this
      exact ⟨hR, fun k h1 h2 => by omega, fun k _ => rfl⟩

/-- The tick schedule corresponding to a schedule of adapter calls. -/
def unbig {i o : Nat} : List (BigCall α i o) → List (Call α i o)
  | [] => []
  | .call (.block size ..) :: cs => List.replicate size .tick ++ unbig cs
  | .call c :: cs => c :: unbig cs
  | .big size _ _ :: cs => List.replicate size .tick ++ unbig cs

def BigCall.ok {i o : Nat} : BigCall α i o → Prop
  | .call c => c.ok
  | .big .. => True

/-- **C16** Any schedule of `process_big` calls of any lengths, mixed with ordinary ticks, blocks and resets, returns the frames
of ticking the wrapped unit sample by sample. -/
theorem C16_big_block {i o : Nat} (n : Node α i o) (hn : BlockEqualsTick n) (w : Nat → Frame α i) (cs : List (BigCall α i o))
    (hc : ∀ c ∈ cs, c.ok) (s : Big n) : bigExec n w cs 0 s = (n.exec w (unbig cs) 0 s.source).2 := by
  obtain ⟨R, hrefl, hreset, hI⟩ := (tickBlock_iff n).2 hn
  suffices ∀ (t : Nat) (s : Big n) (m : n.σ), R s.source m → bigExec n w cs t s = (n.exec w (unbig cs) t m).2 from
    this 0 s s.source (hrefl _)
  induction cs with
  | nil => intros; rfl
  | cons c cs ih =>
    have ihc := ih (fun c' h' => hc c' (List.mem_cons_of_mem _ h'))
    intro t s m hR
    cases c with
    | big size g old =>
      obtain ⟨h1, h2, _⟩ := bigLoop_spec n n.ticks R hI (fun k => w (t + k)) g m size 0 s old hR
      simp only [bigExec, unbig]
      rw [exec_replicate_tick, processBig]
      simp only [Nat.zero_add] at h1 h2
      rw [ihc _ _ _ h1]
      congr 1
      apply List.map_congr_left
      intro k hk
      exact h2 k (Nat.zero_le _) (List.mem_range.1 hk)
    | call c =>
      cases c with
      | tick =>
        obtain ⟨h1, h2⟩ := hI.tick s.source m (w t) hR
        simp only [bigExec, unbig, Node.exec]
        rw [ihc _ _ _ h1, h2]
      | reset =>
        simp only [bigExec, unbig, Node.exec]
        exact ihc _ _ _ (hreset _ _ hR)
      | block size tail old g =>
        have hs : size ≤ 64 := hc _ (List.mem_cons_self ..)
        obtain ⟨h1, h2⟩ := hI.process g s.source m size (blockInput w t size tail) old hs hR
        have hfr : ∀ j, j < size → (blockInput w t size tail).frame j = (fun k => w (t + k)) j := by
          intro j hj; funext c; simp [Buf.frame, blockInput, hj]
        rw [Mealy.st_congr _ _ _ (fun k => w (t + k)) size (fun j hj => hfr j hj)] at h1
        simp only [bigExec, unbig]
        rw [exec_replicate_tick, ihc _ _ _ h1]
        congr 1
        apply List.map_congr_left
        intro k hk
        have hk' := List.mem_range.1 hk
        rw [h2 k hk']
        exact Mealy.out_congr _ _ _ _ _ (fun j hj => hfr j (by omega))

/-- A one-sample delay processed 1000 samples at once, then ticked. -/
example (w : Nat → Frame Int 1) (s) (g) (old) :
    bigExec (Node.ofTick (i := 1) (o := 1) Int (fun _ => 0) (fun s x => (x 0, fun _ => s))) w
      [.big 1000 g old, .call .tick] 0 s =
    ((Node.ofTick (i := 1) (o := 1) Int (fun _ => 0) (fun s x => (x 0, fun _ => s))).exec w
      (List.replicate 1000 .tick ++ [.tick]) 0 s.source).2 :=
  C16_big_block _ ((tickBlock_iff _).1 (tickBlock_ofTick _ _)) w _ (by simp [BigCall.ok, Call.ok]) s

/-! ## C17 -/

/-- The full-block behaviour of a generator: processing 64 samples from a state represented by `m` yields the frames
`frames m 0 .. 63` and leads to a state represented by `next m`, whatever the buffer contents; a reset leads to `init`. -/
structure FullBlocks {o : Nat} (n : Node α 0 o) (S : Type) (R : n.σ → S → Prop) (init : S) (next : S → S)
    (frames : S → Nat → Frame α o) : Prop where
  block : ∀ g s m inp out, R s m → R (n.process g s 64 inp out).1 (next m) ∧
    ∀ k, k < 64 → (n.process g s 64 inp out).2.frame k = frames m k
  reset : ∀ s m, R s m → R (n.reset s) init

/-- Frame `k` of the generator processed in full blocks. -/
def blockStream {S : Type} {o : Nat} (next : S → S) (frames : S → Nat → Frame α o) (m : S) (k : Nat) : Frame α o :=
  frames (next^[k / 64] m) (k % 64)

/-- Adapter state after delivering `k` frames. -/
structure At {o : Nat} {n : Node α 0 o} {S : Type} (R : n.σ → S → Prop) (next : S → S) (frames : S → Nat → Frame α o) (m : S)
    (k : Nat) (s : Rate n) : Prop where
  /-- The buffer holds block `b`, of which `s.index` frames are delivered; with nothing delivered yet there is no block. -/
  ex : ∃ b, k + 64 = 64 * b + s.index ∧ 0 < s.index ∧ s.index ≤ 64 ∧ R s.unit (next^[b] m) ∧
    (0 < b → ∀ j, j < 64 → s.buffer.frame j = frames (next^[b - 1] m) j)

theorem refill_at {o : Nat} {n : Node α 0 o} {S : Type} {R : n.σ → S → Prop} {init : S} {next : S → S} {frames : S → Nat → Frame α o}
    (hF : FullBlocks n S R init next frames) {m : S} {k : Nat} {s : Rate n} (h : At R next frames m k s) (g : Garb α) (inp : Buf α 0) :
    ∃ b, k = 64 * b + (s.refill g inp).index ∧ (s.refill g inp).index < 64 ∧ R (s.refill g inp).unit (next^[b + 1] m) ∧
      ∀ j, j < 64 → (s.refill g inp).buffer.frame j = frames (next^[b] m) j := by
  obtain ⟨b, h1, h2, h3, h4, h5⟩ := h.ex
  unfold Rate.refill
  by_cases hi : s.index = 64
  · rw [if_pos hi]
    obtain ⟨a, c⟩ := hF.block g s.unit _ inp s.buffer h4
    refine ⟨b, by simp only; omega, by simp, ?_, c⟩
    rw [Function.iterate_succ_apply']
    exact a
  · rw [if_neg hi]
    have hb : 0 < b := by omega
    obtain ⟨c, rfl⟩ : ∃ c, b = c + 1 := ⟨b - 1, by omega⟩
    exact ⟨c, by omega, by omega, h4, h5 hb⟩

theorem tick_at {o : Nat} {n : Node α 0 o} {S : Type} {R : n.σ → S → Prop} {init : S} {next : S → S} {frames : S → Nat → Frame α o}
    (hF : FullBlocks n S R init next frames) {m : S} {k : Nat} {s : Rate n} (h : At R next frames m k s) (g : Garb α) :
    At R next frames m (k + 1) (s.tick g).1 ∧ (s.tick g).2 = blockStream next frames m k := by
  obtain ⟨b, h1, h2, h3, h4⟩ := refill_at hF h g (fun c => c.elim0)
  unfold Rate.tick
  simp only
  refine ⟨⟨b + 1, by simp only; omega, by simp, by simp only; omega, h3, fun _ => h4⟩, ?_⟩
  rw [h4 _ h2, blockStream]
  have e1 : k / 64 = b := by omega
  have e2 : k % 64 = (s.refill g (fun c => c.elim0)).index := by omega
  rw [e1, e2]

theorem loop_at {o : Nat} {n : Node α 0 o} {S : Type} {R : n.σ → S → Prop} {init : S} {next : S → S} {frames : S → Nat → Frame α o}
    (hF : FullBlocks n S R init next frames) (g : Nat → Garb α) (inp : Buf α 0) {m : S} (k : Nat) :
    ∀ (left pos : Nat) (s : Rate n) (out : Buf α o), At R next frames m (k + pos) s →
      At R next frames m (k + pos + left) (s.loop g inp left pos out).1 ∧
      (∀ t, pos ≤ t → t < pos + left → (s.loop g inp left pos out).2.frame t = blockStream next frames m (k + t)) ∧
      (∀ t, t < pos → (s.loop g inp left pos out).2.frame t = out.frame t) := by
  intro left
  induction left using Nat.strongRecOn with
  | ind left ih =>
    intro pos s out h
    rw [Rate.loop]
    by_cases hl : 0 < left
    · rw [if_pos hl]
      obtain ⟨b, h1, h2, h3, h4⟩ := refill_at hF h (g pos) inp
      simp only
      generalize s.refill (g pos) inp = s' at *
      have hk0 : 0 < min left (64 - s'.index) := by omega
      have hkl : min left (64 - s'.index) ≤ left := Nat.min_le_left _ _
      have hki : min left (64 - s'.index) ≤ 64 - s'.index := Nat.min_le_right _ _
      generalize min left (64 - s'.index) = d at *
      rw [dif_pos hk0]
      obtain ⟨a, c, e⟩ := ih (left - d) (by omega) (pos + d) { s' with index := s'.index + d }
        (fun c t => if pos ≤ t ∧ t < pos + d then s'.buffer c (s'.index + (t - pos)) else out c t)
        ⟨b + 1, by simp only; omega, by simp only; omega, by simp only; omega, h3, fun _ => h4⟩
      have e1 : k + (pos + d) + (left - d) = k + pos + left := by omega
      have e2 : pos + d + (left - d) = pos + left := by omega
      rw [e1] at a
      rw [e2] at c
      refine ⟨a, ?_, ?_⟩
      · intro t ht1 ht2
        by_cases ht : t < pos + d
        · rw [e t ht]
          have hj := h4 (s'.index + (t - pos)) (by omega)
          rw [blockStream]
          have q1 : (k + t) / 64 = b := by omega
          have q2 : (k + t) % 64 = s'.index + (t - pos) := by omega
          rw [q1, q2, ← hj]
          funext ch
          simp [Buf.frame, ht1, ht]
        · exact c t (by omega) ht2
      · intro t ht
        rw [e t (by omega)]
        funext ch
        simp [Buf.frame, show ¬ (pos ≤ t ∧ t < pos + d) by omega]
    · rw [if_neg hl]
      have : left = 0 := by omega
      subst this
      exact ⟨h, fun t h1 h2 => by omega, fun t _ => rfl⟩

/-- Number of frames returned after the last reset. -/
def sinceReset {o : Nat} : List (RateCall α o) → Nat → Nat
  | [], k => k
  | .tick _ :: cs, k => sinceReset cs (k + 1)
  | .block size _ _ :: cs, k => sinceReset cs (k + size)
  | .reset :: cs, _ => sinceReset cs 0

/-- `true` if the schedule contains a reset. -/
def hasReset {o : Nat} : List (RateCall α o) → Bool
  | [] => false
  | .reset :: _ => true
  | _ :: cs => hasReset cs

/-- **C17** However ticks and blocks of any sizes are mixed, the frames returned since the last reset (or since construction) are
the frames of the wrapped generator processed in full blocks of 64, from its reset (initial) state. -/
theorem C17_block_rate {o : Nat} (n : Node α 0 o) {S : Type} (R : n.σ → S → Prop) {init : S} {next : S → S}
    {frames : S → Nat → Frame α o} (hF : FullBlocks n S R init next frames) (zero : α) (cs : List (RateCall α o)) (u : n.σ) (m : S)
    (hu : R u m) :
    (rateExec cs (Rate.new n u zero) []).2 =
      (List.range (sinceReset cs 0)).map (blockStream next frames (if hasReset cs then init else m)) := by
  have key : ∀ (cs : List (RateCall α o)) (m : S) (k : Nat) (s : Rate n), At R next frames m k s →
      (rateExec cs s ((List.range k).map (blockStream next frames m))).2 =
        (List.range (sinceReset cs k)).map (blockStream next frames (if hasReset cs then init else m)) := by
    intro cs
    induction cs with
    | nil => intro m k s h; rfl
    | cons c cs ih =>
      intro m k s h
      cases c with
      | tick g =>
        obtain ⟨h1, h2⟩ := tick_at hF h g
        simp only [rateExec, sinceReset, hasReset]
        have := ih m (k + 1) _ h1
        rw [List.range_succ, List.map_append] at this
        rw [h2]
        exact this
      | block size g old =>
        obtain ⟨h1, h2, _⟩ := loop_at hF g (fun c => c.elim0) k size 0 s old (by simpa using h)
        simp only [Nat.add_zero, Nat.zero_add] at h1 h2
        simp only [rateExec, sinceReset, hasReset, Rate.process]
        have := ih m (k + size) _ h1
        rw [List.range_add, List.map_append, List.map_map] at this
        have e : (List.range size).map (s.loop g (fun c => c.elim0) size 0 old).2.frame =
            (List.range size).map (blockStream next frames m ∘ fun x => k + x) := by
          apply List.map_congr_left
          intro t ht
          exact h2 t (Nat.zero_le _) (List.mem_range.1 ht)
        rw [e]
        exact this
      | reset =>
        simp only [rateExec, sinceReset, hasReset, if_true]
        obtain ⟨b, _, _, _, h4, _⟩ := h.ex
        have := ih init 0 s.reset ⟨0, by simp [Rate.reset], by simp [Rate.reset], by simp [Rate.reset], hF.reset _ _ h4, fun h => absurd h (by omega)⟩
        simp only [List.range_zero, List.map_nil] at this
        rw [this]
        simp
  have := key cs m 0 (Rate.new n u zero) ⟨0, by simp [Rate.new], by simp [Rate.new], by simp [Rate.new], hu, fun h => absurd h (by omega)⟩
  simpa using this

/-- **C17** For a generator whose block processing equals ticking and whose reset leads to the state `u0`, the adapter returns
exactly the tick stream, from `u0` after a reset. -/
theorem C17_block_rate_ticks {o : Nat} (n : Node α 0 o) (hn : BlockEqualsTick n) (u0 : n.σ) (hr : ∀ s, n.reset s = u0) (zero : α)
    (cs : List (RateCall α o)) (u : n.σ) :
    (rateExec cs (Rate.new n u zero) []).2 =
      (List.range (sinceReset cs 0)).map (n.ticks.out (if hasReset cs then u0 else u) (fun _ c => c.elim0)) := by
  obtain ⟨R, hrefl, hreset, hI⟩ := (tickBlock_iff n).2 hn
  have hw : ∀ w : Nat → Frame α 0, w = (fun _ c => c.elim0) := by intro w; funext k c; exact c.elim0
  have hF : FullBlocks n n.σ R u0 (fun m => n.ticks.st m (fun _ c => c.elim0) 64) (fun m => n.ticks.out m (fun _ c => c.elim0)) := by
    refine ⟨?_, fun s m _ => by rw [hr]; exact hrefl _⟩
    intro g s m inp out hR
    have := hI.process g s m 64 inp out (Nat.le_refl _) hR
    rw [hw inp.frame] at this
    exact this
  rw [C17_block_rate n R hF zero cs u u (hrefl u)]
  apply List.map_congr_left
  intro k _
  have hit : ∀ (b : Nat) (m : n.σ), (fun m => n.ticks.st m (fun _ c => c.elim0) 64)^[b] m = n.ticks.st m (fun _ c => c.elim0) (64 * b) := by
    intro b
    induction b with
    | zero => intro m; rfl
    | succ b ih =>
      intro m
      rw [Function.iterate_succ_apply', ih, Nat.mul_succ, Mealy.st_add]
  unfold blockStream
  have hb : ∀ (v : n.σ) (a b : Nat), n.ticks.out (n.ticks.st v (fun _ c => c.elim0) a) (fun _ c => c.elim0) b =
      n.ticks.out v (fun _ c => c.elim0) (a + b) := fun v a b => (Mealy.out_add n.ticks v (fun _ c => c.elim0) a b).symm
  rw [hit]
  show n.ticks.out (n.ticks.st _ (fun _ c => c.elim0) (64 * (k / 64))) (fun _ c => c.elim0) (k % 64) = _
  rw [hb, Nat.div_add_mod]

/-- A counter generator: 3 ticks and a block of 5 return the first 8 values. -/
example (g : Nat → Garb Int) (old : Buf Int 1) :
    (rateExec (n := Node.ofTick (i := 0) (o := 1) Int (fun _ => 0) (fun s _ => (s + 1, fun _ => s)))
      [.tick (g 0), .tick (g 1), .tick (g 2), .block 5 g old] (Rate.new _ (0 : Int) 0) []).2 =
    [0, 1, 2, 3, 4, 5, 6, 7].map (fun k => (fun _ => k : Frame Int 1)) := by
  exact (C17_block_rate_ticks (Node.ofTick (i := 0) (o := 1) Int (fun _ => 0) (fun s _ => (s + 1, fun _ => s)))
    ((tickBlock_iff _).1 (tickBlock_ofTick _ _)) (0 : Int) (fun _ => rfl) 0 _ (0 : Int)).trans rfl

end Fundsp.Adapt
