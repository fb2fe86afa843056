import Verif.Net.FadeIn
import Verif.Net.BackendLemmas

/-!
# C116: a unit added with a fade-in rises from silence

A node that was added with `fade_in` over `T` samples should play sample `k` of the unit with the weight `fade(k / T)`, and the unit alone from `T` on,
no matter how the net is run.
-/
namespace Fundsp.Net
variable {U : Type}

/-- **C116** `fade_in` adds a node that plays the dummy unit and is about to fade to the unit, which has been told the rate of the net. -/
theorem C116_added {S : Units U ℝ} (hS : S.Lawful) {P : Proc U ℝ} (hd : DummyLaw S P) (net : Net U ℝ) (hb : net.hasBackend = false) (id : NodeId)
    (fade : Fade) (t : ℝ) (u : U) : ∃ net' d, fadeIn S net id fade t u = some net' ∧
      engOf net' id = some (Eng.ready S (S.dummy (S.ins u) (S.outs u)) (some d)) ∧
      d.unit = some (S.setSR net.sampleRate u) ∧ d.fade = fade ∧ d.time = t := by
  have hi : (push S net id (S.dummy (S.ins u) (S.outs u))).nodeIndex.get id = some net.vertex.length := by
    simp only [push]; rw [IdMap.get_insert, if_pos rfl]
  have hv : (push S net id (S.dummy (S.ins u) (S.outs u))).vertex[net.vertex.length]? =
      some (Vertex.new S id net.vertex.length (S.dummy (S.ins u) (S.outs u))) := by
    simp only [push, hd.rate]; exact List.getElem?_concat_length
  have ha : S.ins u = (Vertex.new S id net.vertex.length (S.dummy (S.ins u) (S.outs u))).ins ∧
      S.outs u = (Vertex.new S id net.vertex.length (S.dummy (S.ins u) (S.outs u))).outs := ⟨(hS.ins_dummy _ _).symm, (hS.outs_dummy _ _).symm⟩
  have hb' : (push S net id (S.dummy (S.ins u) (S.outs u))).hasBackend = false := hb
  refine ⟨{ push S net id (S.dummy (S.ins u) (S.outs u)) with
    vertex := (push S net id (S.dummy (S.ins u) (S.outs u))).vertex.set net.vertex.length
      { Vertex.new S id net.vertex.length (S.dummy (S.ins u) (S.outs u)) with
        eng := (Vertex.new S id net.vertex.length (S.dummy (S.ins u) (S.outs u))).eng.enqueue S
          ⟨some (S.setSR net.sampleRate u), id, net.vertex.length, fade, t⟩ } },
    ⟨some (S.setSR net.sampleRate u), id, net.vertex.length, fade, t⟩, ?_, ?_, rfl, rfl, rfl⟩
  · simp only [fadeIn, crossfade, hi, hv, Option.bind_eq_bind, Option.bind_some, if_pos ha, hb']
    rfl
  · have hl := (List.getElem?_eq_some_iff.1 hv).1
    simp only [engOf, hi, Option.bind_some, List.getElem?_set_self hl, Option.map_some]
    rfl

/-! ## Ticks -/

theorem fadeIn_ticks {S : Units U ℝ} (hA : S.toArith = realArith) {P : Proc U ℝ} (hd : DummyLaw S P) (sr : ℝ) (i o : Nat) (n : U) (d : NodeEdit U ℝ)
    (hn : d.unit = some n) (hT : 0 < d.time * sr) (X : Nat → List ℝ) (k : Nat) (hk : (k : ℝ) < d.time * sr) :
    Fading sr d.fade d.time k (S.dummy i o) (uSt S n X k) none (engSt S sr (Eng.ready S (S.dummy i o) (some d)) X k) := by
  induction k with
  | zero => exact fading_ready hA P 0 (S.dummy i o) n d hn hT [] trivial
  | succ k ih =>
    have := (Fading.tick hA hT (ih (lt_of_le_of_lt (by push_cast; linarith) hk)) (X k)).2.1 hk
    rw [hd.tick] at this
    exact this

theorem fadeIn_over {S : Units U ℝ} (hA : S.toArith = realArith) {P : Proc U ℝ} (hd : DummyLaw S P) (sr : ℝ) (i o : Nat) (n : U) (d : NodeEdit U ℝ)
    (hn : d.unit = some n) (hT : 0 < d.time * sr) (X : Nat → List ℝ) (k : Nat) (hk : d.time * sr ≤ k) :
    Alike (engSt S sr (Eng.ready S (S.dummy i o) (some d)) X k) (Eng.resting S (uSt S n X k)) := by
  induction k with
  | zero => exact absurd hk (by push_cast; linarith)
  | succ k ih =>
    rcases lt_or_ge (k : ℝ) (d.time * sr) with h | h
    · exact (Fading.tick hA hT (fadeIn_ticks hA hd sr i o n d hn hT X k h) (X k)).2.2 hk
    · exact ((ih h).tick S sr (X k)).1

/-- **C116** (ticks): every sample of the fade-in is the sample of the unit, times the fade curve at the time since the start; from the end on it is the
sample of the unit. -/
theorem C116_ticks {S : Units U ℝ} (hA : S.toArith = realArith) (hS : S.Lawful) {P : Proc U ℝ} (hd : DummyLaw S P) (sr : ℝ) (n : U)
    (d : NodeEdit U ℝ) (hn : d.unit = some n) (hT : 0 < d.time * sr) (X : Nat → List ℝ) (k : Nat) :
    engOut S sr (Eng.ready S (S.dummy (S.ins n) (S.outs n)) (some d)) X k =
      if (k : ℝ) < d.time * sr then (uOut S n X k).map (· * realArith.fadeAt d.fade (k / (d.time * sr))) else uOut S n X k := by
  split
  · rename_i hk
    have h := (Fading.tick hA hT (fadeIn_ticks hA hd sr (S.ins n) (S.outs n) n d hn hT X k hk) (X k)).1
    rw [engOut, h, hd.tick]
    have hz : S.zero = 0 := by rw [hA]; rfl
    have hl : (S.utick (uSt S n X k) (X k)).2.length = S.outs n := by
      rw [hS.tick_length]
      clear h hk
      induction k with
      | zero => rfl
      | succ k ih => rw [uSt, hS.outs_tick, ih]
    simp only [dummyTick, hz, ← hl]
    exact zipWith_replicate_zero _ _ _
  · rename_i hk
    exact ((fadeIn_over hA hd sr (S.ins n) (S.outs n) n d hn hT X k (not_lt.1 hk)).tick S sr (X k)).2

/-! ## Blocks -/

/-- **C116** (blocks), after any ticks, blocks and edits in which the fade has not ended: the first eighth of a block is right, and so are samples after the
end of the fade. The other samples get the contents of the output buffer of the node mixed in, that is, what the node has played in the block before.

Missing: those samples, for which the claim is false (`C116_violation_loud`, `C116_violation_unbounded`). -/
theorem C116_blocks_partial {S : Units U ℝ} (hA : S.toArith = realArith) {P : Proc U ℝ} (hd : DummyLaw S P) (sr : ℝ) (i o : Nat) (n : U)
    (d : NodeEdit U ℝ) (hn : d.unit = some n) (hT : 0 < d.time * sr) (q : List (NodeEv U)) (hw : Within (d.time * sr) 0 q) (size : Nat)
    (x out tmp : CBuf ℝ) (c j : Nat) (hc : c < o) (hj : j < size) :
    let new := P (drive S P (fun _ tmp => tmp) q n) size x tmp
    let w := fun x => realArith.fadeAt d.fade x
    let p : ℝ := (elapsed q + j : ℕ) / (d.time * sr)
    ((after S P sr o (Eng.ready S (S.dummy i o) (some d)) q).process S P sr o size x out tmp).2 c j =
      if ⌊d.time * sr⌋₊ ≤ elapsed q + j then new.2 c j
      else if 8 * j < size then new.2 c j * w p
      else new.2 c j * w p + out c j * w (1 - p) := by
  intro new w p
  rw [(C13_crossfade hA P sr o (S.dummy i o) n d hn hT q hw).2 size x out tmp c j hc hj, drive_dummy hd, hd.block]
  have hs : j < simdItems size ↔ 8 * j < size := by
    unfold simdItems; rw [Nat.shiftRight_eq_div_pow]; omega
  have hz : S.zero = 0 := by rw [hA]; rfl
  by_cases h1 : elapsed q + j < ⌊d.time * sr⌋₊
  · rw [if_pos h1, if_neg (by omega)]
    by_cases h2 : 8 * j < size
    · simp only [dummyProcess]
      rw [if_pos ⟨hc, hs.2 h2⟩, if_pos h2, hz, zero_mul, zero_add]
    · simp only [dummyProcess]
      rw [if_neg (fun h => h2 (hs.1 h.2)), if_neg h2, add_comm]
  · rw [if_neg h1, if_pos (by omega)]

/-- **C116** (blocks, smooth fades): the output stays within the bounds of the unit, if the output buffer is within them. -/
theorem C116_smooth_bounded_partial {S : Units U ℝ} (hA : S.toArith = realArith) {P : Proc U ℝ} (hd : DummyLaw S P) (sr : ℝ) (i o : Nat) (n : U)
    (d : NodeEdit U ℝ) (hn : d.unit = some n) (hf : d.fade = .smooth) (hT : 0 < d.time * sr) (q : List (NodeEv U))
    (hw : Within (d.time * sr) 0 q) (size : Nat) (x out tmp : CBuf ℝ) (M : ℝ) (c j : Nat) (hc : c < o) (hj : j < size)
    (ho : |out c j| ≤ M) (hu : |(P (drive S P (fun _ tmp => tmp) q n) size x tmp).2 c j| ≤ M) :
    |((after S P sr o (Eng.ready S (S.dummy i o) (some d)) q).process S P sr o size x out tmp).2 c j| ≤ M := by
  rw [C116_blocks_partial hA hd sr i o n d hn hT q hw size x out tmp c j hc hj]
  dsimp only
  have hM := le_trans (abs_nonneg _) ho
  generalize (P (drive S P (fun _ tmp => tmp) q n) size x tmp).2 c j = a at *
  split
  · exact hu
  · rename_i h1
    have hp : ((elapsed q + j : ℕ) : ℝ) / (d.time * sr) ≤ 1 := by
      rw [div_le_one hT]
      exact le_trans (Nat.cast_le.2 (not_le.1 h1).le) (Nat.floor_le hT.le)
    obtain ⟨w0, w1, w2, -⟩ := weights d.fade (t := ((elapsed q + j : ℕ) : ℝ) / (d.time * sr)) (by positivity) hp
    have w3 := w2 hf
    generalize realArith.fadeAt d.fade (1 - ((elapsed q + j : ℕ) : ℝ) / (d.time * sr)) = v at *
    generalize realArith.fadeAt d.fade (((elapsed q + j : ℕ) : ℝ) / (d.time * sr)) = w at *
    split
    · rw [abs_mul, abs_of_nonneg w1.1]
      nlinarith [w1.1, w1.2, abs_nonneg a]
    · calc |a * w + out c j * v| ≤ |a * w| + |out c j * v| := abs_add_le _ _
        _ = |a| * w + |out c j| * v := by rw [abs_mul, abs_mul, abs_of_nonneg w1.1, abs_of_nonneg w0.1]
        _ ≤ M * w + M * v := add_le_add (mul_le_mul_of_nonneg_right hu w1.1) (mul_le_mul_of_nonneg_right ho w0.1)
        _ = M := by rw [← mul_add, add_comm w v, w3, mul_one]

/-! ## Violations -/

/-- What sample 8 of each block becomes, for a constant of 1 that is faded in over `64 M` samples. -/
noncomputable def echo (M : ℝ) : Nat → ℝ
  | 0 => 0
  | n + 1 => echo M n * Math.sineEase (1 - (n + 1 / 8) / M) + Math.sineEase ((n + 1 / 8) / M)

theorem sineEase_late {f : ℝ} (h0 : 0 ≤ f) (h1 : f ≤ 1) : 1 - 5 / 4 * f ^ 2 ≤ Math.sineEase (1 - f) ∧ 0 ≤ Math.sineEase (1 - f) := by
  rw [Math.sineEase_eq]
  have hp : (0 : ℝ) < 5 - (1 - f) * (2 - (1 - f)) := by nlinarith
  constructor
  · rw [le_div_iff₀ hp]; nlinarith [sq_nonneg f, mul_nonneg (sq_nonneg f) (sq_nonneg f)]
  · apply div_nonneg _ hp.le; nlinarith

theorem sineEase_early {f : ℝ} (h0 : 0 ≤ f) (h1 : f ≤ 1 / 3) : 3 / 2 * f ≤ Math.sineEase f := by
  rw [Math.sineEase_eq]
  have hp : (0 : ℝ) < 5 - f * (2 - f) := by nlinarith
  rw [le_div_iff₀ hp]
  nlinarith [mul_nonneg h0 (by linarith : (0 : ℝ) ≤ 1 / 3 - f), mul_nonneg (mul_nonneg h0 h0) (by linarith : (0 : ℝ) ≤ 1 / 3 - f)]

theorem echo_ge {M : ℝ} (hM : 0 < M) (N : Nat) (h1 : 3 * (N + 1) ≤ M) (h2 : 5 / 12 * (N : ℝ) ^ 3 ≤ M ^ 2) (n : Nat) (hn : n ≤ N) :
    3 / 2 * (1 - 5 / 12 * n ^ 3 / M ^ 2) * (((n : ℝ) - 1) * n / (2 * M)) ≤ echo M n := by
  induction n with
  | zero => simp [echo]
  | succ n ih =>
    have ih := ih (by omega)
    have hnN : (n : ℝ) + 1 ≤ N := by exact_mod_cast hn
    have hn0 : (0 : ℝ) ≤ n := Nat.cast_nonneg n
    obtain ⟨f, hf⟩ : ∃ f, f = ((n : ℝ) + 1 / 8) / M := ⟨_, rfl⟩
    have f0 : 0 ≤ f := by rw [hf]; positivity
    have f1 : f ≤ 1 / 3 := by rw [hf, div_le_iff₀ hM]; linarith
    obtain ⟨a1, a2⟩ := sineEase_late f0 (by linarith)
    have a3 := sineEase_early f0 f1
    rw [echo, ← hf]
    generalize Math.sineEase (1 - f) = w1 at *
    generalize Math.sineEase f = w2 at *
    generalize echo M n = y at *
    obtain ⟨Q, hQ⟩ : ∃ Q, Q = 5 / 12 * (n : ℝ) ^ 3 / M ^ 2 := ⟨_, rfl⟩
    obtain ⟨Q', hQ'⟩ : ∃ Q, Q = 5 / 12 * ((n + 1 : ℕ) : ℝ) ^ 3 / M ^ 2 := ⟨_, rfl⟩
    obtain ⟨s, hs⟩ : ∃ s, s = ((n : ℝ) - 1) * n / (2 * M) := ⟨_, rfl⟩
    have hM2 : 0 < M ^ 2 := by positivity
    have hs' : (((n + 1 : ℕ) : ℝ) - 1) * (n + 1 : ℕ) / (2 * M) = s + n / M := by
      rw [hs]; push_cast; field_simp; ring
    have s0 : 0 ≤ s := by
      rw [hs]
      rcases Nat.eq_zero_or_pos n with h | h
      · rw [h]; simp
      · have : (1 : ℝ) ≤ n := by exact_mod_cast h
        apply div_nonneg (mul_nonneg (by linarith) hn0) (by linarith)
    have Q0 : 0 ≤ Q := by rw [hQ]; positivity
    have Q1 : Q' ≤ 1 := by
      rw [hQ', div_le_one hM2]
      refine le_trans ?_ h2
      have : ((n + 1 : ℕ) : ℝ) ^ 3 ≤ (N : ℝ) ^ 3 := pow_le_pow_left₀ (Nat.cast_nonneg _) (by exact_mod_cast hn) 3
      linarith
    have hQd : Q + 5 / 4 * f ^ 2 ≤ Q' := by
      rw [hQ, hQ', hf, div_pow, ← mul_div_assoc, ← add_div]
      apply div_le_div_of_nonneg_right _ hM2.le
      push_cast; nlinarith
    have fM : (n : ℝ) / M ≤ f := by rw [hf]; apply div_le_div_of_nonneg_right _ hM.le; linarith
    have nM : 0 ≤ (n : ℝ) / M := by positivity
    rw [← hQ, ← hs] at ih
    rw [← hQ', hs']
    generalize (n : ℝ) / M = g at *
    have e1 : 3 / 2 * (1 - Q) * s * w1 ≤ y * w1 := mul_le_mul_of_nonneg_right ih a2
    have e2 : 0 ≤ (1 - Q) * s := mul_nonneg (by nlinarith [sq_nonneg f]) s0
    have e3 : (1 - Q) * s * (1 - 5 / 4 * f ^ 2) ≤ (1 - Q) * s * w1 := mul_le_mul_of_nonneg_left a1 e2
    have e4 : (1 - Q') * s ≤ (1 - Q) * (1 - 5 / 4 * f ^ 2) * s := by
      apply mul_le_mul_of_nonneg_right _ s0
      nlinarith [mul_nonneg Q0 (sq_nonneg f)]
    have e5 : (1 - Q') * g ≤ f := by nlinarith [mul_nonneg (le_trans (by nlinarith [sq_nonneg f]) hQd : (0 : ℝ) ≤ Q') nM]
    nlinarith

/-- The net with a constant that is faded in, and connected to the output, at a rate of 44100 Hz. -/
noncomputable def risingNet (t : ℝ) : Net FU ℝ := soloNet 44100 (Eng.ready fadeUnits (.dummy 0 1) (some ⟨some (.dc 1), 0, 0, .power, t⟩)) (fun _ _ => 0)

/-- **C116** How that net is made, with calls of the frontend, and then ordered. -/
theorem C116_rising_made [DecidableEq ℝ] (t : ℝ) : ∃ f, runEdits fadeEnv 0 (new 44100 0 1) [.fadeIn .power t (.dc 1), .pipeOutput 0] = some (f, 1) ∧
    ready fadeUnits id 0 f = risingNet t := ⟨_, rfl, rfl⟩

theorem rising_blocks {t M : ℝ} (hM : 0 < M) (ht : t * 44100 = 64 * M) (x old : CBuf ℝ) (tmp : Nat → CBuf ℝ) (n : Nat) (hn : ((n : ℝ) + 1) ≤ M) :
    ∃ e b, blocks (risingNet t) x old tmp n = soloNet 44100 e b ∧ b 0 8 = echo M n ∧
      Fading 44100 .power t (64 * n) (.dummy 0 1) (.dc 1) none e ∧
      (process fadeUnits fadeProc id 0 (blocks (risingNet t) x old tmp n) 64 x old tmp).2 0 8 = echo M (n + 1) := by
  have hT : 0 < t * 44100 := by rw [ht]; linarith
  have key : ∀ (n : Nat) (e : Eng FU ℝ) (b : CBuf ℝ), ((n : ℝ) + 1) ≤ M → Fading 44100 .power t (64 * n) (.dummy 0 1) (.dc 1) none e → b 0 8 = echo M n →
      (e.process fadeUnits fadeProc 44100 1 64 (fun _ _ => 0) b (tmp 0)).2 0 8 = echo M (n + 1) := by
    intro n e b hn h hb
    have hfl : 64 * (n + 1) ≤ ⌊t * 44100⌋₊ := Nat.le_floor (by rw [ht]; push_cast; linarith)
    rw [(Fading.block rfl fadeProc 1 hT h 64 (fun _ _ => 0) b (tmp 0)).1 0 8 (by omega) (by omega), if_pos (by omega), echo]
    have h1 : (fadeProc (.dummy 0 1) 64 (fun _ _ => 0) b).2 0 8 = b 0 8 := by
      show (if 0 < 1 ∧ 8 < simdItems 64 then (0 : ℝ) else b 0 8) = _
      rw [if_neg (by decide)]
    have h2 : (fadeProc (.dc 1) 64 (fun _ _ => 0) (tmp 0)).2 0 8 = 1 := by
      show (if 0 < 1 ∧ 8 < 8 * simdItems 64 then (1 : ℝ) else tmp 0 0 8) = _
      rw [if_pos (by decide)]
    have h3 : ((64 * n + 8 : ℕ) : ℝ) / (t * 44100) = (n + 1 / 8) / M := by rw [ht]; push_cast; field_simp; ring
    rw [h1, h2, h3, hb, one_mul]; rfl
  have main : ∃ e b, blocks (risingNet t) x old tmp n = soloNet 44100 e b ∧ b 0 8 = echo M n ∧ Fading 44100 .power t (64 * n) (.dummy 0 1) (.dc 1) none e := by
    induction n with
    | zero => exact ⟨_, _, rfl, rfl, fading_ready (S := fadeUnits) rfl fadeProc 1 (FU.dummy 0 1) (.dc 1) ⟨some (.dc 1), 0, 0, .power, t⟩ rfl hT [] trivial⟩
    | succ n ih =>
      have hn' : ((n : ℝ) + 1) + 1 ≤ M := by push_cast at hn; exact hn
      obtain ⟨e, b, h1, h2, h3⟩ := ih (by linarith)
      have hfl : 64 * n + 64 < ⌊t * 44100⌋₊ := by
        refine Nat.lt_of_succ_le (Nat.le_floor ?_)
        rw [ht]; push_cast; linarith
      refine ⟨_, _, ?_, key n e b (by linarith) h3 h2, (Fading.block (S := fadeUnits) rfl fadeProc 1 hT h3 64 (fun _ _ => 0) b (tmp 0)).2.1 hfl⟩
      rw [blocks, h1, solo_process]
  obtain ⟨e, b, h1, h2, h3⟩ := main
  refine ⟨e, b, h1, h2, h3, ?_⟩
  rw [h1, solo_process]
  show (if 0 = 0 ∧ 8 < 8 * simdItems 64 then (e.process fadeUnits fadeProc 44100 1 64 (fun _ _ => 0) b (tmp 0)).2 0 8 else old 0 8) = _
  rw [if_pos (by decide)]
  exact key n e b hn h3 h2

/-- **C116** is violated: a constant of 1 is faded in over ten seconds with `Fade::Power`, at 44100 Hz and in blocks of 64 samples. After half a second,
where the weight of the unit is less than a tenth, the output is above 8. Ticked, it is never above 1. -/
theorem C116_violation_loud (x old : CBuf ℝ) (tmp : Nat → CBuf ℝ) :
    8 < (process fadeUnits fadeProc id 0 (blocks (risingNet 10) x old tmp 330) 64 x old tmp).2 0 8 ∧
    ∀ X k, ∀ y ∈ engOut fadeUnits 44100 (Eng.ready fadeUnits (.dummy 0 1) (some ⟨some (.dc 1), 0, 0, .power, 10⟩)) X k, y ≤ 1 := by
  constructor
  · obtain ⟨e, b, h1, h2, h3, h4⟩ := rising_blocks (t := 10) (M := 441000 / 64) (by norm_num) (by norm_num) x old tmp 330 (by norm_num)
    rw [h4]
    refine lt_of_lt_of_le ?_ (echo_ge (M := 441000 / 64) (by norm_num) 331 (by norm_num) (by norm_num) 331 le_rfl)
    norm_num
  · intro X k y hy
    have hu : ∀ k, uSt fadeUnits (.dc 1) X k = .dc 1 := by
      intro k
      induction k with
      | zero => rfl
      | succ k ih => rw [uSt, ih]; rfl
    have ho : uOut fadeUnits (.dc 1) X k = [1] := by rw [uOut, hu]; rfl
    have := C116_ticks (S := fadeUnits) rfl fadeUnits_lawful fadeUnits_dummy 44100 (.dc 1) ⟨some (.dc 1), 0, 0, .power, 10⟩ rfl (by norm_num) X k
    rw [ho] at this
    change engOut fadeUnits 44100 (Eng.ready fadeUnits (.dummy 0 1) (some ⟨some (.dc 1), 0, 0, .power, 10⟩)) X k = _ at this
    rw [this] at hy
    split at hy
    · rename_i hk
      rcases List.mem_singleton.1 hy with rfl
      show 1 * realArith.fadeAt .power ((k : ℝ) / (10 * 44100)) ≤ 1
      rw [one_mul]
      have hp : (k : ℝ) / (10 * 44100) ≤ 1 := by rw [div_le_one (by norm_num)]; exact le_of_lt hk
      exact (weights .power (t := (k : ℝ) / (10 * 44100)) (by positivity) hp).second.2
    · rcases List.mem_singleton.1 hy with rfl
      exact le_refl 1

/-- **C116** is violated without bounds: with a long enough fade, a constant of 1 exceeds any level. -/
theorem C116_violation_unbounded (L : ℝ) : ∃ (t : ℝ) (n : Nat), 0 < t ∧ 64 * (n + 1 : ℕ) < t * 44100 ∧ ∀ (x old : CBuf ℝ) (tmp : Nat → CBuf ℝ),
    L < (process fadeUnits fadeProc id 0 (blocks (risingNet t) x old tmp n) 64 x old tmp).2 0 8 := by
  obtain ⟨m, hm⟩ := exists_nat_gt (4 * |L| + 1)
  have hL : L ≤ |L| := le_abs_self L
  have hL0 := abs_nonneg L
  have m1 : (1 : ℝ) ≤ m := by linarith
  have mN : 1 ≤ m := by exact_mod_cast m1
  have m2 : (1 : ℝ) ≤ (m : ℝ) ^ 2 := by nlinarith
  have m3 : (m : ℝ) ^ 2 ≤ (m : ℝ) ^ 3 := by nlinarith
  have hM : (0 : ℝ) < 16 * (m : ℝ) ^ 3 := by linarith
  have hN : 1 ≤ 4 * m ^ 2 := by nlinarith
  have hc : ((4 * m ^ 2 - 1 : ℕ) : ℝ) = 4 * (m : ℝ) ^ 2 - 1 := by rw [Nat.cast_sub hN]; push_cast; ring
  refine ⟨64 * (16 * m ^ 3) / 44100, 4 * m ^ 2 - 1, by positivity, ?_, fun x old tmp => ?_⟩
  · rw [Nat.sub_add_cancel hN]; push_cast; linarith
  · obtain ⟨e, b, h1, h2, h3, h4⟩ := rising_blocks (t := 64 * (16 * m ^ 3) / 44100) (M := 16 * m ^ 3) hM (by ring) x old tmp (4 * m ^ 2 - 1) (by rw [hc]; linarith)
    rw [h4, Nat.sub_add_cancel hN]
    refine lt_of_lt_of_le ?_ (echo_ge hM (4 * m ^ 2) (by push_cast; linarith) (by push_cast; nlinarith [mul_self_nonneg ((m : ℝ) ^ 3)]) (4 * m ^ 2) le_rfl)
    have hq : (5 : ℝ) / 12 * ((4 * m ^ 2 : ℕ) : ℝ) ^ 3 / (16 * (m : ℝ) ^ 3) ^ 2 = 5 / 48 := by push_cast; field_simp; norm_num
    have hs : (((4 * m ^ 2 : ℕ) : ℝ) - 1) * (4 * m ^ 2 : ℕ) / (2 * (16 * (m : ℝ) ^ 3)) = (4 * (m : ℝ) ^ 2 - 1) / (8 * m) := by push_cast; field_simp; ring
    rw [hq, hs]
    have : 3 / 8 * (m : ℝ) ≤ (4 * (m : ℝ) ^ 2 - 1) / (8 * m) := by rw [le_div_iff₀ (by linarith)]; nlinarith
    nlinarith

/-! ## Non-vacuity -/

/-- A constant of 6 is faded in over four samples: it starts from silence and is at half its level after two ticks. -/
example : engOut fadeUnits 2 (Eng.ready fadeUnits (.dummy 0 1) (some ⟨some (.dc 6), 0, 0, .smooth, 2⟩)) (fun _ => []) 0 = [0] ∧
    engOut fadeUnits 2 (Eng.ready fadeUnits (.dummy 0 1) (some ⟨some (.dc 6), 0, 0, .smooth, 2⟩)) (fun _ => []) 2 = [3] := by
  have h := C116_ticks (S := fadeUnits) rfl fadeUnits_lawful fadeUnits_dummy 2 (.dc 6) ⟨some (.dc 6), 0, 0, .smooth, 2⟩ rfl (by norm_num) (fun _ => [])
  refine ⟨(h 0).trans ?_, (h 2).trans ?_⟩
  · norm_num [uOut, uSt, fadeUnits, realArith, Math.smooth5]
  · norm_num [uOut, uSt, fadeUnits, realArith, Math.smooth5]

/-- The same in blocks of two samples, after one tick: the second sample gets half of what the buffer contained, here 4. -/
example (x tmp : CBuf ℝ) : ((after fadeUnits fadeProc 2 1 (Eng.ready fadeUnits (.dummy 0 1) (some ⟨some (.dc 6), 0, 0, .smooth, 2⟩)) [.tick []]).process
    fadeUnits fadeProc 2 1 2 x (fun _ _ => 4) tmp).2 0 1 = 5 := by
  have hw : Within (2 * 2) 0 ([.tick []] : List (NodeEv FU)) := by simp [Within]; norm_num
  refine (C116_blocks_partial (S := fadeUnits) rfl fadeUnits_dummy 2 0 1 (.dc 6) ⟨some (.dc 6), 0, 0, .smooth, 2⟩ rfl (by norm_num) [.tick []] hw 2 x
    (fun _ _ => 4) tmp 0 1 (by omega) (by omega)).trans ?_
  have hf : ⌊(2 : ℝ) * 2⌋₊ = 4 := by rw [show (2 : ℝ) * 2 = (4 : ℕ) by norm_num, Nat.floor_natCast]
  have hu : (fadeProc (.dc 6) 2 x tmp).2 0 1 = 6 := by
    show (if 0 < 1 ∧ 1 < 8 * simdItems 2 then (6 : ℝ) else tmp 0 1) = 6
    rw [if_pos (by decide)]
  have hd : drive fadeUnits fadeProc (fun _ tmp => tmp) [.tick []] (.dc 6) = .dc 6 := rfl
  simp only [hf, hd, hu, elapsed]
  norm_num [realArith, Math.smooth5]

/-- The law of blocks of C08 holds of constants, and not of the dummy unit: C08 covers nets in which no fade-in is under way. -/
example : BlockLaw fadeUnits fadeProc (fun u v => u = v ∧ ∃ x, u = .dc x) ∧
    ∀ R, BlockLaw fadeUnits fadeProc R → ∀ i o, 0 < o → ¬ R (.dummy i o) (.dummy i o) := by
  constructor
  · refine ⟨?_, ?_, ?_, ?_⟩
    · rintro u _ ⟨rfl, _⟩; exact ⟨rfl, rfl⟩
    · rintro u _ ⟨rfl, h⟩; exact ⟨rfl, h⟩
    · rintro u _ x ⟨rfl, y, rfl⟩; exact ⟨⟨rfl, y, rfl⟩, rfl⟩
    · rintro u _ size x old ⟨rfl, y, rfl⟩ _
      have hu : ∀ X k, uSt fadeUnits (.dc y) X k = .dc y := by
        intro X k
        induction k with
        | zero => rfl
        | succ k ih => rw [uSt, ih]; rfl
      refine ⟨⟨(hu _ _).symm, y, rfl⟩, fun c k hc hk => ?_⟩
      have hc' : c = 0 := Nat.lt_one_iff.1 hc
      subst hc'
      rw [uOut, hu]
      show (if 0 < 1 ∧ k < 8 * simdItems size then y else old 0 k) = y
      rw [if_pos ⟨by omega, lt_simd hk⟩]
  · intro R L i o ho h
    have h1 := (L.proc _ _ 64 (fun _ _ => 0) (fun _ _ => 1) h (le_refl _)).2 0 8 ho (by omega)
    have hu : ∀ X k, uSt fadeUnits (.dummy i o) X k = .dummy i o := by
      intro X k
      induction k with
      | zero => rfl
      | succ k ih => rw [uSt, ih]; rfl
    rw [uOut, hu] at h1
    change (if 0 < o ∧ 8 < simdItems 64 then (0 : ℝ) else 1) = (List.replicate o (0 : ℝ)).getD 0 0 at h1
    rw [if_neg (by simp [simdItems])] at h1
    cases o with
    | zero => exact absurd ho (by omega)
    | succ o => simp at h1

end Fundsp.Net
