import Verif.Effect.Reverb2Line
import Verif.Env.Reset

/-!
# C87: the hybrid reverb with modulated lines

`reverb2_stereo` of the prelude, with any loop filter.
-/

noncomputable section
namespace Fundsp.Effect
open Fundsp.Delay Fundsp.Filter Fundsp.Pan Fundsp.Env Finset

/-- Order of the lines: lengths go up by two steps from the left and come back from the right. -/
def order2 : Fin 32 → Nat := ![0, 2, 4, 6, 8, 10, 12, 14, 16, 18, 20, 22, 24, 26, 28, 30, 31, 29, 27, 25, 23, 21, 19, 17, 15, 13, 11, 9, 7, 5, 3, 1]

/-- Lengths of the allpasses of the lines, in samples at 44.1 kHz. -/
def primes2 : Fin 32 → Nat := ![11, 17, 31, 53, 97, 131, 193, 241, 293, 337, 397, 449, 503, 557, 601, 653, 677, 631, 571, 523, 479, 421, 359, 311, 269, 223, 163,
  113, 71, 41, 23, 13]

/-- Shortest line, in seconds: 10 ms and 3 ms per meter. -/
def short2 (room : ℝ) : ℝ := 0.01 + 0.003 * min (max room 10) 30

/-- Mean length of the delay of line `i`, in seconds. -/
def centre2 (room : ℝ) (i : Fin 32) : ℝ := short2 room + order2 i * (max (short2 room) 0.062 / 32) - primes2 i / 44100

/-- Equations of the reverb at sample rate `sr`. Stereo input `x`; `p`: after the pre-diffusers; `u`: into the lines; `z`: after the delays; `y`: out of the lines;
`q`: lengths of the delays in samples; `noise i` is the spline noise that modulates line `i` and `filtered v` the signal `v` after the loop filter. -/
structure Rev2Eq (sr room time diffusion speed : ℝ) (noise : Nat → ℝ → ℝ) (filtered : (Nat → ℝ) → Nat → ℝ) (x p : Nat → Frame ℝ 2) (q u z y : Nat → Fin 32 → ℝ) : Prop where
  /-- Each channel passes two allpasses. -/
  pre : ∀ c : Fin 2, ∃ m, Schroeder 0.618 (⌊(![224, 247] c : ℝ) / 44100 * sr + 1 / 2⌋₊ + 1) (fun k => x k c) m ∧
    Schroeder 0.618 (⌊(![340, 366] c : ℝ) / 44100 * sr + 1 / 2⌋₊ + 1) m (fun k => p k c)
  /-- Even lines take the left and odd ones the right channel; the outputs of the previous sample are mixed with the Hadamard matrix. -/
  mix : ∀ k i, u k i = p k (if i.1 % 2 = 0 then 0 else 1) + if k = 0 then 0 else
    (∑ j : Fin 32, (-1) ^ ((Finset.range 5).filter fun b => j.1.testBit b = true ∧ i.1.testBit b = true).card * y (k - 1) j) / Real.sqrt 32
  /-- The loop filter, the gain, and the delay by linear interpolation. -/
  tap : ∀ k i, z k i = lerpAt (fun j => filtered (fun j => u j i) j * (10 : ℝ) ^ (-(1.5 * short2 room / time))) (q k i) k
  /-- The allpass of the line. -/
  allpass : ∀ i, Schroeder (0.5 + 0.4 * diffusion) (⌊((primes2 i : ℝ) - 1) / 44100 * sr + 1 / 2⌋₊ + 1) (fun k => z k i) (fun k => y k i)
  /-- The length of a delay is the linear interpolation, between points 7.5 to 12.5 ms apart, of its mean plus one millisecond times noise. -/
  mod : ∀ (k : Nat) (i : Fin 32), ∃ t₀ t₁, 0.0075 ≤ t₁ - t₀ ∧ t₁ - t₀ ≤ 0.0125 ∧ t₀ ≤ k / sr ∧ k / sr < t₁ ∧
    q k i = sr * ((1 - (k / sr - t₀) / (t₁ - t₀)) * (centre2 room i + 0.001 * noise i.1 (t₀ * speed / 2))
      + (k / sr - t₀) / (t₁ - t₀) * (centre2 room i + 0.001 * noise i.1 (t₁ * speed / 2)))
  /-- It stays within one millisecond of its mean. -/
  range : ∀ k i, |q k i - sr * centre2 room i| ≤ 0.001 * sr
  /-- It changes by at most 0.0012 samples per sample and unit of modulation speed. -/
  slow : ∀ k i, |q (k + 1) i - q k i| ≤ 0.0012 * |speed|

theorem short2_eq (room : ℝ) : delayMin room = short2 room := by unfold delayMin short2 Math.clamp; ring

theorem gain2_eq (room time : ℝ) : loopGain2 room time = (10 : ℝ) ^ (-(1.5 * short2 room / time)) := by
  unfold loopGain2
  rw [← Real.rpow_mul (by norm_num), short2_eq]
  congr 1
  ring

theorem order2_eq (i : Fin 32) : lineOrder i.1 = order2 i ∧ allpassTable.getD (lineOrder i.1) 0 = primes2 i := by
  fin_cases i <;> exact ⟨rfl, rfl⟩

theorem centre2_eq (room : ℝ) (i : Fin 32) : lineDelay room i.1 = centre2 room i := by
  unfold lineDelay centre2 allpassDelay defaultSr
  rw [delayStep_eq, short2_eq, (order2_eq i).2, (order2_eq i).1]

theorem allpass_small {sr t : ℝ} (h0 : 0 ≤ sr) (h : sr ≤ 2 ^ 32) (ht : t ≤ 1) : samplesOf sr t + 1 < 2 ^ 64 := by
  have : samplesOf sr t < 2 ^ 33 := by
    refine (Nat.floor_lt' (by norm_num)).2 ?_
    have : t * sr ≤ 1 * sr := mul_le_mul_of_nonneg_right ht h0
    push_cast
    norm_num at h this ⊢
    linarith
  omega

theorem allpassDelay_le (i : Fin 32) : allpassDelay i.1 - 1 / defaultSr ≤ 1 := by
  unfold allpassDelay defaultSr
  rw [(order2_eq i).2]
  have : primes2 i ≤ 677 := by revert i; decide
  have : (primes2 i : ℝ) ≤ 677 := by exact_mod_cast this
  linarith

/-- One line, as nodes. -/
theorem line2_out (R : Rev2) (F : Node ℝ 1 1) (f : F.σ) (hash : BitVec 64) (i : Nat) (w : Nat → Frame ℝ 1) :
    (line2 R F i).stream (line2New R F f hash i) w = (allnestNode (delayNode (0 : ℝ)) 0).stream (allpassNew R.sr (diffuse R.diffusion) (allpassDelay i - 1 / defaultSr))
      ((pipe (j := 2) (line2In R F i) (linNode (realLin (lineDelay R.room i - lineVar) (lineDelay R.room i + lineVar) R.sr) 1)).stream
        (((f, fun _ => loopGain2 R.room R.time), newSt (lineMod R.noise R.room R.speed i) 0.01 R.sr hash), linSetup 0 ⌈(lineDelay R.room i + lineVar) * R.sr⌉₊) w) :=
  pipe_stream (j := 1) (pipe (j := 2) (line2In R F i) (linNode (realLin (lineDelay R.room i - lineVar) (lineDelay R.room i + lineVar) R.sr) 1)) (allnestNode (delayNode 0) 0) _ _ w

/-- The signal after the pre-diffusers. -/
def preOut (R : Rev2) (x : Nat → Frame ℝ 2) : Nat → Frame ℝ 2 :=
  (stack (i := 1) (j := 1) (o := 1) (p := 1) prepass prepass).stream (prepassNew R.sr (224 / defaultSr) (340 / defaultSr), prepassNew R.sr (247 / defaultSr) (366 / defaultSr)) x

theorem preOut_eq (R : Rev2) (x : Nat → Frame ℝ 2) (k : Nat) :
    preOut R x k 0 = prepass.stream (prepassNew R.sr (224 / defaultSr) (340 / defaultSr)) (fun k _ => x k 0) k 0 ∧
    preOut R x k 1 = prepass.stream (prepassNew R.sr (247 / defaultSr) (366 / defaultSr)) (fun k _ => x k 1) k 0 := by
  have h := stack_out (i := 1) (j := 1) (o := 1) (p := 1) prepass prepass (prepassNew R.sr (224 / defaultSr) (340 / defaultSr)) (prepassNew R.sr (247 / defaultSr) (366 / defaultSr)) x k
  constructor
  · refine (congrFun h 0).trans ?_
    show prepass.ticks.out _ (fun k => (x k).takeL (i := 1) (j := 1)) k 0 = _
    have e : (fun k => (x k).takeL (i := 1) (j := 1)) = fun k _ => x k 0 := by
      funext k c
      rw [Fin.eq_zero c]; rfl
    rw [e]; rfl
  · refine (congrFun h 1).trans ?_
    show prepass.ticks.out _ (fun k => (x k).takeR (i := 1) (j := 1)) k 0 = _
    have e : (fun k => (x k).takeR (i := 1) (j := 1)) = fun k _ => x k 1 := by
      funext k c
      rw [Fin.eq_zero c]; rfl
    rw [e]; rfl

theorem prepass_out (sr t t' : ℝ) (w : Nat → Frame ℝ 1) :
    prepass.stream (prepassNew sr t t') w = (allnestNode (delayNode (0 : ℝ)) 0).stream (allpassNew sr 0.618 t') ((allnestNode (delayNode (0 : ℝ)) 0).stream (allpassNew sr 0.618 t) w) :=
  pipe_stream (allnestNode (delayNode (0 : ℝ)) 0) (allnestNode (delayNode (0 : ℝ)) 0) _ _ w

/-- The network of lines. -/
def netOut (R : Rev2) (F : Node ℝ 1 1) (f : F.σ) (hash : Nat → BitVec 64) (x : Nat → Frame ℝ 2) : Nat → Frame ℝ (1 * 32) :=
  (fdn 5 32 (oneOf (line2 R F))).stream (lines2New R F f hash, fun _ => 0) ((multiSplit 2 16).stream () (preOut R x))

theorem reverb2_eq (R : Rev2) (F : Node ℝ 1 1) (f : F.σ) (hash : Nat → BitVec 64) (x : Nat → Frame ℝ 2) (k : Nat) (c : Fin 2) :
    (reverb2 R F).stream (reverb2New R F f hash) x k c
      = (binop (i := 1 * 32) (j := 0) (· * ·) (panSum 31) (constant 2)).stream (panSumNew 31, fun _ => 1 / 8) (netOut R F f hash x) k c := by
  have h1 : (reverb2 R F).stream (reverb2New R F f hash) x = (unop (· * (1 / 8)) (panSum 31)).stream (panSumNew 31) (netOut R F f hash x) := by
    refine (pipe_stream (j := 32) (pipe (j := 32) (pipe (j := 2) (stack (i := 1) (j := 1) (o := 1) (p := 1) prepass prepass) (multiSplit 2 16)) (fdn 5 32 (oneOf (line2 R F))))
      (unop (· * (1 / 8)) (panSum 31)) _ _ x).trans (congrArg _ ?_)
    refine (pipe_stream (j := 32) (pipe (j := 2) (stack (i := 1) (j := 1) (o := 1) (p := 1) prepass prepass) (multiSplit 2 16)) (fdn 5 32 (oneOf (line2 R F))) _ _ x).trans (congrArg _ ?_)
    exact pipe_stream (j := 2) (stack (i := 1) (j := 1) (o := 1) (p := 1) prepass prepass) (multiSplit 2 16) _ _ x
  rw [h1]
  obtain ⟨a0, a1⟩ := panSum_out 31 (panSumNew 31) (netOut R F f hash x) k
  obtain ⟨b0, b1⟩ := panBinop_out 31 (1 / 8) (netOut R F f hash x) k
  have hu := unop_out (· * (1 / 8)) (panSum 31) (panSumNew 31) (netOut R F f hash x) k
  fin_cases c
  · exact (congrFun hu 0).trans ((congrArg (· * (1 / 8)) a0).trans b0.symm)
  · exact (congrFun hu 1).trans ((congrArg (· * (1 / 8)) a1).trans b1.symm)

theorem net_out (R : Rev2) (F : Node ℝ 1 1) (f : F.σ) (hash : Nat → BitVec 64) (x : Nat → Frame ℝ 2) (k : Nat) (i : Fin 32) :
    netOut R F f hash x k (Fin.cast (Nat.one_mul 32).symm i)
      = (line2 R F i.1).stream (line2New R F f (hash i.1) i.1) (fun j _ => fed 5 ((multiSplit 2 16).stream () (preOut R x)) (netOut R F f hash x) j (Fin.cast (Nat.one_mul 32).symm i)) k 0 := by
  have h := fdn_out_of 5 32 (oneOf (line2 R F)) (lines2New R F f hash) ((multiSplit 2 16).stream () (preOut R x)) k (Fin.cast (Nat.one_mul 32).symm i)
  have hni : nodeOf (Fin.cast (Nat.one_mul 32).symm i) = i := by apply Fin.ext; simp [nodeOf]
  refine h.trans ?_
  rw [hni]
  refine (congrFun (oneOf_out (line2 R F) i.1 (line2New R F f (hash i.1) i.1) _ k) 0).trans ?_
  show (line2 R F i.1).ticks.out _ _ k 0 = (line2 R F i.1).ticks.out _ _ k 0
  congr 2
  funext j c
  rw [Fin.eq_zero c]
  have := slice_one (fed 5 ((multiSplit 2 16).stream () (preOut R x)) (netOut R F f hash x) j) (Fin.cast (Nat.one_mul 32).symm i)
  rw [hni] at this
  exact this

/-- **C87, structure.** The output is the mix of the 32 lines, panned along an S curve and scaled by 1/8; the lines satisfy the equations of the reverb. -/
theorem C87_network (R : Rev2) (hr : ∀ h, 0 ≤ R.rnd h ∧ R.rnd h ≤ 1) (hsr : 134 ≤ R.sr) (hsr2 : R.sr ≤ 2 ^ 32) (F : Node ℝ 1 1) (f : F.σ) (hash : Nat → BitVec 64)
    (x : Nat → Frame ℝ 2) :
    ∃ (p : Nat → Frame ℝ 2) (q u z y : Nat → Fin 32 → ℝ),
      Rev2Eq R.sr R.room R.time R.diffusion R.speed (fun i => Math.splineNoise R.hash64a R.rnd2 (BitVec.ofNat 64 i)) (fun v k => F.stream f (fun k _ => v k) k 0) x p q u z y ∧
      ∀ k, (reverb2 R F).stream (reverb2New R F f hash) x k 0 = 1 / 8 * ∑ i : Fin 32, Real.cos (Real.pi / 2 * Math.smooth9 ((i.1 : ℝ) / 31)) * y k i ∧
        (reverb2 R F).stream (reverb2New R F f hash) x k 1 = 1 / 8 * ∑ i : Fin 32, Real.sin (Real.pi / 2 * Math.smooth9 ((i.1 : ℝ) / 31)) * y k i := by
  have hs : (0 : ℝ) ≤ R.sr := by linarith
  refine ⟨preOut R x, fun k i => modAt R (hash i.1) i.1 k * R.sr,
    fun k i => fed 5 ((multiSplit 2 16).stream () (preOut R x)) (netOut R F f hash x) k (Fin.cast (Nat.one_mul 32).symm i),
    fun k i => lerpAt (lineFeed R F f (fun j _ => fed 5 ((multiSplit 2 16).stream () (preOut R x)) (netOut R F f hash x) j (Fin.cast (Nat.one_mul 32).symm i)))
      (modAt R (hash i.1) i.1 k * R.sr) k,
    fun k i => netOut R F f hash x k (Fin.cast (Nat.one_mul 32).symm i), ⟨?_, ?_, ?_, ?_, ?_, ?_, ?_⟩, fun k => ?_⟩
  · intro c
    have key : ∀ (t t' : ℝ) (w : Nat → Frame ℝ 1), t ≤ 1 → t' ≤ 1 → ∃ m, Schroeder 0.618 (⌊t * R.sr + 1 / 2⌋₊ + 1) (fun k => w k 0) m ∧
        Schroeder 0.618 (⌊t' * R.sr + 1 / 2⌋₊ + 1) m (fun k => prepass.stream (prepassNew R.sr t t') w k 0) := by
      intro t t' w h h'
      refine ⟨_, allpass_eq (samplesOf R.sr t) (allpass_small hs hsr2 h) 0.618 w, ?_⟩
      rw [prepass_out]
      exact allpass_eq (samplesOf R.sr t') (allpass_small hs hsr2 h') 0.618 _
    fin_cases c
    · obtain ⟨m, h1, h2⟩ := key (224 / defaultSr) (340 / defaultSr) (fun k _ => x k 0) (by unfold defaultSr; norm_num) (by unfold defaultSr; norm_num)
      refine ⟨m, h1, ?_⟩
      have e : (fun k => preOut R x k 0) = fun k => prepass.stream (prepassNew R.sr (224 / defaultSr) (340 / defaultSr)) (fun k _ => x k 0) k 0 := funext fun k => (preOut_eq R x k).1
      refine Eq.mp ?_ h2
      rw [← e]; rfl
    · obtain ⟨m, h1, h2⟩ := key (247 / defaultSr) (366 / defaultSr) (fun k _ => x k 1) (by unfold defaultSr; norm_num) (by unfold defaultSr; norm_num)
      refine ⟨m, h1, ?_⟩
      have e : (fun k => preOut R x k 1) = fun k => prepass.stream (prepassNew R.sr (247 / defaultSr) (366 / defaultSr)) (fun k _ => x k 1) k 0 := funext fun k => (preOut_eq R x k).2
      refine Eq.mp ?_ h2
      rw [← e]; rfl
  · intro k i
    unfold fed
    congr 1
    · show preOut R x k ⟨i.1 % 2, _⟩ = _
      congr 1
      apply Fin.ext
      have := Nat.mod_two_eq_zero_or_one i.1
      split <;> simp_all
    · cases k with
      | zero => simp [delayed]
      | succ k =>
        simp only [delayed, Nat.le_add_left, if_true, Nat.add_sub_cancel, Nat.succ_ne_zero, if_false]
        rw [hadFrame_eq (show 1 * 32 = 2 ^ 5 by norm_num)]
        rfl
  · intro k i
    simp only
    rw [← gain2_eq]
    rfl
  · intro i
    have h := allpass_eq (samplesOf R.sr (allpassDelay i.1 - 1 / defaultSr)) (allpass_small hs hsr2 (allpassDelay_le i)) (diffuse R.diffusion)
      ((pipe (j := 2) (line2In R F i.1) (linNode (realLin (lineDelay R.room i.1 - lineVar) (lineDelay R.room i.1 + lineVar) R.sr) 1)).stream
        (((f, fun _ => loopGain2 R.room R.time), newSt (lineMod R.noise R.room R.speed i.1) 0.01 R.sr (hash i.1)), linSetup 0 ⌈(lineDelay R.room i.1 + lineVar) * R.sr⌉₊)
        (fun j _ => fed 5 ((multiSplit 2 16).stream () (preOut R x)) (netOut R F f hash x) j (Fin.cast (Nat.one_mul 32).symm i)))
    have e1 : (fun k => netOut R F f hash x k (Fin.cast (Nat.one_mul 32).symm i)) = _ :=
      funext fun k => (net_out R F f hash x k i).trans (congrFun (congrFun (line2_out R F f (hash i.1) i.1 _) k) 0)
    have e2 : diffuse R.diffusion = 0.5 + 0.4 * R.diffusion := by unfold diffuse Math.lerp; ring
    have e3 : samplesOf R.sr (allpassDelay i.1 - 1 / defaultSr) = ⌊((primes2 i : ℝ) - 1) / 44100 * R.sr + 1 / 2⌋₊ := by
      unfold samplesOf allpassDelay defaultSr
      rw [(order2_eq i).2, ← sub_div]
    simp only [line2_tap R hr hsr hsr2] at h
    rw [e1, ← e2, ← e3]
    exact h
  · intro k i
    obtain ⟨n, h1, h2, h3⟩ := mod_interp R hr hsr (hash i.1) i.1 k
    refine ⟨_, _, (point_lt R hr (hash i.1) n).1, (point_lt R hr (hash i.1) n).2, h1, h2, ?_⟩
    rw [h3, lineMod_eq, lineMod_eq, centre2_eq, mul_comm _ R.sr]
    have e : ∀ t : ℝ, t * R.speed * 0.5 = t * R.speed / 2 := fun t => by ring
    rw [e, e]
    rfl
  · intro k i
    have h := mod_range R hr hsr (hash i.1) i.1 k
    rw [centre2_eq] at h
    rw [mul_comm R.sr, ← sub_mul, abs_mul, abs_of_nonneg hs]
    exact mul_le_mul_of_nonneg_right h hs
  · intro k i
    exact mod_slow R hr hsr (hash i.1) i.1 k
  · have h := panMix 31 (by norm_num) (1 / 8) (netOut R F f hash x) k
    exact ⟨(reverb2_eq R F f hash x k 0).trans (by exact_mod_cast h.1), (reverb2_eq R F f hash x k 1).trans (by exact_mod_cast h.2)⟩

/-! ## Energy -/

theorem prepass_energy {sr t t' : ℝ} (h0 : 0 ≤ sr) (h : sr ≤ 2 ^ 32) (ht : t ≤ 1) (ht' : t' ≤ 1) (w : Nat → Frame ℝ 1) (N : Nat) :
    ∑ k ∈ range N, prepass.stream (prepassNew sr t t') w k 0 ^ 2 ≤ ∑ k ∈ range N, w k 0 ^ 2 := by
  rw [prepass_out]
  exact (allpass_energy _ (allpass_small h0 h ht') 0.618 (by rw [abs_of_pos] <;> norm_num) _ N).trans
    (allpass_energy _ (allpass_small h0 h ht) 0.618 (by rw [abs_of_pos] <;> norm_num) w N)

theorem preOut_energy (R : Rev2) (h0 : 0 ≤ R.sr) (h : R.sr ≤ 2 ^ 32) (x : Nat → Frame ℝ 2) (N : Nat) : energy (preOut R x) N ≤ energy x N := by
  have e : ∀ y : Nat → Frame ℝ 2, energy y N = ∑ k ∈ range N, y k 0 ^ 2 + ∑ k ∈ range N, y k 1 ^ 2 := by
    intro y
    rw [← sum_add_distrib, energy_eq, Nat.Ico_zero_eq_range]
    refine sum_congr rfl fun k _ => ?_
    unfold en
    rw [Fin.sum_univ_two]
  rw [e, e]
  simp only [fun k => (preOut_eq R x k).1, fun k => (preOut_eq R x k).2]
  exact add_le_add (prepass_energy h0 h (by unfold defaultSr; norm_num) (by unfold defaultSr; norm_num) (fun k _ => x k 0) N)
    (prepass_energy h0 h (by unfold defaultSr; norm_num) (by unfold defaultSr; norm_num) (fun k _ => x k 1) N)

theorem line2_energy (R : Rev2) (hr : ∀ h, 0 ≤ R.rnd h ∧ R.rnd h ≤ 1) (hsr : 134 ≤ R.sr) (hsr2 : R.sr ≤ 2 ^ 32) (hd0 : 0 ≤ R.diffusion) (hd1 : R.diffusion ≤ 1)
    (hs : 0.0012 * |R.speed| ≤ 1 / 3) {F : Node ℝ 1 1} {P : F.σ → Prop} {V : F.σ → ℝ} {f : F.σ} (hF : Reverb.PassiveFrom F P V f) (hash : BitVec 64) (i : Fin 32)
    (w : Nat → Frame ℝ 1) (N : Nat) :
    ∑ k ∈ range N, (line2 R F i.1).stream (line2New R F f hash i.1) w k 0 ^ 2
      ≤ (loopGain2 R.room R.time ^ 2 * (1 + 0.0024 * |R.speed|)) * ∑ k ∈ range N, w k 0 ^ 2 := by
  have h0 : (0 : ℝ) ≤ R.sr := by linarith
  rw [line2_out]
  refine (allpass_energy _ (allpass_small h0 hsr2 (allpassDelay_le i)) _ (diffuse_range hd0 hd1) _ N).trans ?_
  simp only [line2_tap R hr hsr hsr2]
  refine (slow_energy hs (lineFeed R F f w) (fun k => modAt R hash i.1 k * R.sr) (fun k => ?_) (fun k => mod_slow R hr hsr hash i.1 k) N).trans ?_
  · have h1 := (abs_le.1 (mod_range R hr hsr hash i.1 k)).1
    have h2 := (lineDelay_range R.room i).1
    have h3 := (delayMin_range R.room).1
    exact mul_nonneg (by linarith) h0
  · have h1 := passive_energy hF w N
    have h2 : ∑ k ∈ range N, lineFeed R F f w k ^ 2 = loopGain2 R.room R.time ^ 2 * ∑ k ∈ range N, F.stream f w k 0 ^ 2 := by
      rw [mul_sum]
      refine sum_congr rfl fun k _ => ?_
      unfold lineFeed
      ring
    rw [h2]
    have h3 : 0 ≤ (1 + 0.0024 * |R.speed|) * loopGain2 R.room R.time ^ 2 := by positivity
    have h4 := mul_le_mul_of_nonneg_left h1 h3
    linarith

/-- Gain of a pass through a line of the reverb: `g² = 10^(-3 d / time) (1 + 0.0024 speed)` with `d` the shortest delay. -/
def gain2 (room time speed : ℝ) : ℝ := (10 : ℝ) ^ (-(1.5 * short2 room / time)) * Real.sqrt (1 + 0.0024 * |speed|)

/-- **C87, energy.** With a loop filter that does not amplify, and when a pass through a line loses energy, the energy of the output up to any time is at most
`8 (g / (1 - g))²` times the energy of the input. -/
theorem C87_stable (R : Rev2) (hr : ∀ h, 0 ≤ R.rnd h ∧ R.rnd h ≤ 1) (hsr : 134 ≤ R.sr) (hsr2 : R.sr ≤ 2 ^ 32) (hd0 : 0 ≤ R.diffusion) (hd1 : R.diffusion ≤ 1)
    (hs : |R.speed| ≤ 250) (hg : gain2 R.room R.time R.speed < 1)
    {F : Node ℝ 1 1} {P : F.σ → Prop} {V : F.σ → ℝ} {f : F.σ} (hF : Reverb.PassiveFrom F P V f) (hash : Nat → BitVec 64) (x : Nat → Frame ℝ 2) (n : Nat) :
    energy ((reverb2 R F).stream (reverb2New R F f hash) x) n
      ≤ 8 * (gain2 R.room R.time R.speed / (1 - gain2 R.room R.time R.speed)) ^ 2 * energy x n := by
  have h0 : (0 : ℝ) ≤ R.sr := by linarith
  have hp : 0 < gain2 R.room R.time R.speed := by
    unfold gain2
    have := abs_nonneg R.speed
    exact mul_pos (Real.rpow_pos_of_pos (by norm_num) _) (Real.sqrt_pos.2 (by positivity))
  have hsq : gain2 R.room R.time R.speed ^ 2 = loopGain2 R.room R.time ^ 2 * (1 + 0.0024 * |R.speed|) := by
    unfold gain2
    rw [mul_pow, Real.sq_sqrt (by positivity), gain2_eq]
  have hn := fdn_gain_of (p := 5) (n := 32) rfl (oneOf (line2 R F)) (lines2New R F f hash) hp hg (fun i u N => by
    have e : ∀ k, (oneOf (line2 R F)).ticks.out (lines2New R F f hash i) u k 0 = (line2 R F i.1).stream (line2New R F f (hash i.1) i.1) u k 0 :=
      fun k => congrFun (oneOf_out (line2 R F) i.1 (line2New R F f (hash i.1) i.1) u k) 0
    simp only [e]
    rw [hsq]
    exact line2_energy R hr hsr hsr2 hd0 hd1 (by linarith) hF (hash i.1) i u N) ((multiSplit 2 16).stream () (preOut R x)) n
  have e2 : ∑ k ∈ Ico 0 n, en ((multiSplit 2 16 : Node ℝ 2 32).stream () (preOut R x) k : Frame ℝ (1 * 32)) = 16 * ∑ k ∈ Ico 0 n, en (preOut R x k) := by
    rw [Finset.mul_sum]; exact Finset.sum_congr rfl fun k _ => stereo_split (preOut R x) k
  rw [e2] at hn
  have he := preOut_energy R h0 hsr2 x n
  rw [energy_eq, energy_eq] at he
  obtain ⟨G, hG⟩ : ∃ G, G = (gain2 R.room R.time R.speed / (1 - gain2 R.room R.time R.speed)) ^ 2 := ⟨_, rfl⟩
  have hG0 : 0 ≤ G := by rw [hG]; positivity
  rw [← hG] at hn ⊢
  rw [energy_eq, energy_eq]
  have hb : ∀ k, en ((reverb2 R F).stream (reverb2New R F f hash) x k) ≤ 1 / 2 * en (netOut R F f hash x k) := by
    intro k
    have h1 : (reverb2 R F).stream (reverb2New R F f hash) x k = (binop (i := 1 * 32) (j := 0) (· * ·) (panSum 31) (constant 2)).stream (panSumNew 31, fun _ => 1 / 8) (netOut R F f hash x) k :=
      funext fun c => reverb2_eq R F f hash x k c
    rw [h1]
    refine (en_panSum 31 (1 / 8) _ k).trans (le_of_eq ?_)
    norm_num
  have hn' : ∑ k ∈ Ico 0 n, en (netOut R F f hash x k) ≤ G * (16 * ∑ k ∈ Ico 0 n, en (preOut R x k)) := hn
  have he' := mul_le_mul_of_nonneg_left he hG0
  calc _ ≤ ∑ k ∈ Ico 0 n, 1 / 2 * en (netOut R F f hash x k) := Finset.sum_le_sum fun k _ => hb k
    _ ≤ _ := by rw [← Finset.mul_sum]; linarith

/-- **C87, decay.** Reverberation times up to 100 seconds over the modulation speed are within the energy bound. -/
theorem C87_gain (room : ℝ) {time speed : ℝ} (ht : 0 < time) (hs : |speed| * time ≤ 100) : gain2 room time speed < 1 := by
  have h3 : 0.04 ≤ short2 room := by rw [← short2_eq]; exact (delayMin_range room).1
  have hlog : 2.27 ≤ Real.log 10 := by
    have h1 : Real.log 10 = Real.log 2 + Real.log 5 := by rw [← Real.log_mul (by norm_num) (by norm_num)]; norm_num
    have h2 : Real.log 5 = Real.log 4 + Real.log (5 / 4) := by rw [← Real.log_mul (by norm_num) (by norm_num)]; norm_num
    have h4 : Real.log 4 = 2 * Real.log 2 := by rw [show (4 : ℝ) = 2 ^ 2 by norm_num, Real.log_pow]; norm_num
    have h5 : Real.log (5 / 4) ≥ 1 / 5 := by
      have := Real.one_sub_inv_le_log_of_pos (show (0 : ℝ) < 5 / 4 by norm_num)
      norm_num at this
      linarith
    have h6 := Real.log_two_gt_d9
    linarith
  have hsq : gain2 room time speed ^ 2 < 1 := by
    unfold gain2
    rw [mul_pow, Real.sq_sqrt (by positivity), ← Real.rpow_natCast, ← Real.rpow_mul (by norm_num), Real.rpow_def_of_pos (by norm_num)]
    have e : Real.log 10 * (-(1.5 * short2 room / time) * ((2 : ℕ) : ℝ)) = -(3 * (Real.log 10 * short2 room) / time) := by push_cast; ring
    rw [e, Real.exp_neg]
    have h4 : 0.2724 / time ≤ 3 * (Real.log 10 * short2 room) / time := by
      refine div_le_div_of_nonneg_right ?_ ht.le
      have : 2.27 * 0.04 ≤ Real.log 10 * short2 room := mul_le_mul hlog h3 (by norm_num) (by linarith)
      linarith
    have h5 := Real.add_one_le_exp (3 * (Real.log 10 * short2 room) / time)
    have h6 : |speed| ≤ 100 / time := by rw [le_div_iff₀ ht]; exact hs
    have h7 : 0.0024 * |speed| < 0.2724 / time := by
      have : 0.0024 * |speed| ≤ 0.0024 * (100 / time) := by linarith
      have h8 : 0.0024 * (100 / time) = 0.24 / time := by ring
      have h9 : 0.24 / time < 0.2724 / time := div_lt_div_of_pos_right (by norm_num) ht
      linarith
    rw [inv_mul_lt_iff₀ (Real.exp_pos _)]
    linarith
  have hp : 0 ≤ gain2 room time speed := mul_nonneg (Real.rpow_nonneg (by norm_num) _) (Real.sqrt_nonneg _)
  nlinarith

/-- **C87, dying out.** The output of an input of finite energy tends to silence. -/
theorem C87_dies_out (R : Rev2) (hr : ∀ h, 0 ≤ R.rnd h ∧ R.rnd h ≤ 1) (hsr : 134 ≤ R.sr) (hsr2 : R.sr ≤ 2 ^ 32) (hd0 : 0 ≤ R.diffusion) (hd1 : R.diffusion ≤ 1)
    (hs : |R.speed| ≤ 250) (ht : 0 < R.time) (hst : |R.speed| * R.time ≤ 100)
    {F : Node ℝ 1 1} {P : F.σ → Prop} {V : F.σ → ℝ} {f : F.σ} (hF : Reverb.PassiveFrom F P V f) (hash : Nat → BitVec 64) (x : Nat → Frame ℝ 2) (B : ℝ) (hB : ∀ n, energy x n ≤ B)
    (j : Fin 2) : _root_.Filter.Tendsto (fun k => (reverb2 R F).stream (reverb2New R F f hash) x k j) _root_.Filter.atTop (nhds 0) :=
  tendsto_of_energy _ (8 * (gain2 R.room R.time R.speed / (1 - gain2 R.room R.time R.speed)) ^ 2 * B)
    (fun n => (C87_stable R hr hsr hsr2 hd0 hd1 hs (C87_gain R.room ht hst) hF hash x n).trans (mul_le_mul_of_nonneg_left (hB n) (by positivity))) j

/-! ## Onset -/

theorem lerpAt_early (x : Nat → ℝ) {p : ℝ} {k : Nat} (h : (k : ℝ) < ⌊p⌋₊) : lerpAt x p k = 0 := by
  have h' : k < ⌊p⌋₊ := by exact_mod_cast h
  unfold lerpAt delayed
  rw [if_neg (by omega), if_neg (by omega)]
  ring

/-- A Schroeder allpass that has had silence is silent. -/
theorem schroeder_silent {eta : ℝ} {D : Nat} {x y : Nat → ℝ} (hD : 0 < D) (h : Schroeder eta D x y) (n : Nat) (hx : ∀ k, k < n → x k = 0) (k : Nat) (hk : k < n) : y k = 0 := by
  induction k using Nat.strong_induction_on with
  | _ k ih =>
    have h1 : delayed 0 D x k = 0 := by
      unfold delayed
      split
      · exact hx _ (by omega)
      · rfl
    have h2 : eta * delayed 0 D y k = 0 := by
      unfold delayed
      split
      · rw [ih (k - D) (by omega) (by omega), mul_zero]
      · rw [mul_zero]
    rw [h k, h1, h2, hx k hk]
    ring

/-- **C87, onset.** Nothing is heard until the shortest delay, less 1.25 ms, has passed, whatever the loop filter. -/
theorem C87_onset (R : Rev2) (hr : ∀ h, 0 ≤ R.rnd h ∧ R.rnd h ≤ 1) (hsr : 134 ≤ R.sr) (hsr2 : R.sr ≤ 2 ^ 32) (F : Node ℝ 1 1) (f : F.σ) (hash : Nat → BitVec 64)
    (x : Nat → Frame ℝ 2) (k : Nat) (hk : k < ⌊(short2 R.room - 0.00125) * R.sr⌋₊) (j : Fin 2) : (reverb2 R F).stream (reverb2New R F f hash) x k j = 0 := by
  obtain ⟨p, q, u, z, y, h, ho⟩ := C87_network R hr hsr hsr2 F f hash x
  have hz : ∀ i m, m < ⌊(short2 R.room - 0.00125) * R.sr⌋₊ → z m i = 0 := by
    intro i m hm
    rw [h.tap m i]
    refine lerpAt_early _ ?_
    have h1 := (abs_le.1 (h.range m i)).1
    have h2 := (lineDelay_range R.room i).1
    rw [centre2_eq, short2_eq] at h2
    have h3 : (short2 R.room - 0.00125) * R.sr ≤ q m i := by
      have : (short2 R.room - 0.00025) * R.sr ≤ centre2 R.room i * R.sr := mul_le_mul_of_nonneg_right (by linarith) (by linarith)
      linarith
    exact_mod_cast lt_of_lt_of_le hm (Nat.floor_le_floor h3)
  have hy : ∀ i, y k i = 0 := fun i => schroeder_silent (Nat.succ_pos _) (h.allpass i) _ (hz i) k hk
  fin_cases j
  · refine (ho k).1.trans ?_
    simp [hy]
  · refine (ho k).2.trans ?_
    simp [hy]

/-! ## Blocks and reset -/

theorem prepass_block : BlockEqualsTick prepass :=
  C14_block_equals_tick (.pipe (.leaf (allnestNode (delayNode (0 : ℝ)) 0)) (.leaf (allnestNode (delayNode (0 : ℝ)) 0)))
    ⟨(tickBlock_iff _).1 (tickBlock_ofTick _ _), (tickBlock_iff _).1 (tickBlock_ofTick _ _)⟩

/-- The reverb as a graph. -/
def graph2 (R : Rev2) (F : Node ℝ 1 1) : Graph ℝ 2 2 :=
  .pipe (j := 32) (.pipe (j := 32) (.pipe (j := 2) (.stack (i := 1) (j := 1) (o := 1) (p := 1) (.leaf prepass) (.leaf prepass)) (.multiSplit 2 16)) (.leaf (fdn 5 32 (oneOf (line2 R F)))))
    (.unop (· * (1 / 8)) (.reduce (· + ·) 31 (.leaf panner1)))

theorem graph2_sound (R : Rev2) (F : Node ℝ 1 1) : (graph2 R F).Sound :=
  ⟨⟨⟨⟨prepass_block, prepass_block⟩, trivial⟩, fdn_block _ _ _⟩, (C51_block_equals_tick 1 1).1⟩

/-- **C87, blocks.** The reverb may be run in any mix of blocks and ticks, from any state and with any loop filter. -/
theorem C87_block (R : Rev2) (F : Node ℝ 1 1) : BlockEqualsTick (reverb2 R F) := C14_block_equals_tick (graph2 R F) (graph2_sound R F)

theorem allpassNew_fresh (sr eta t : ℝ) : ResetFresh (allnestNode (delayNode (0 : ℝ)) 0) (allpassNew sr eta t) :=
  C19_allnest (delayNode 0) 0 (delaySetup 0 (samplesOf sr t)) eta (C19_delay 0 _)

theorem prepass_fresh (sr t t' : ℝ) : ResetFresh prepass (prepassNew sr t t') :=
  TickFresh.resetFresh (tickFresh_pipe (X := allnestNode (delayNode (0 : ℝ)) 0) (Y := allnestNode (delayNode (0 : ℝ)) 0) (allpassNew_fresh sr 0.618 t).tickFresh (allpassNew_fresh sr 0.618 t').tickFresh)
    (fun w cs hc => prepass_block w cs hc _)

theorem line2_fresh (R : Rev2) {F : Node ℝ 1 1} {f : F.σ} (hF : TickFresh F f) (hash : BitVec 64) (i : Nat) : TickFresh (line2 R F i) (line2New R F f hash i) := by
  have hc : TickFresh (constant 1 : Node ℝ 0 1) (fun _ => loopGain2 R.room R.time : Frame ℝ 1) :=
    tickFresh_of_eq (n := Fundsp.constant 1) (fun s => s = (fun _ => loopGain2 R.room R.time : Frame ℝ 1)) rfl (fun _ _ hs => hs) (fun _ hs => hs)
  exact tickFresh_pipe (tickFresh_pipe (tickFresh_stack (tickFresh_binop _ hF hc) (envelope_tickFresh R.rnd _ 0.01 R.sr hash))
    (C19_tap_linear (realLin (lineDelay R.room i - lineVar) (lineDelay R.room i + lineVar) R.sr) 1 _).tickFresh) (allpassNew_fresh R.sr _ _).tickFresh

theorem fdn_fresh_of (p n : Nat) (X : Node ℝ 1 1) (s : Fin n → X.σ) (h : ∀ i, TickFresh X (s i)) : ResetFresh (fdn p n X) (s, fun _ => 0) := by
  have hX := tickFresh_multiStack n h
  refine TickFresh.ofTick (tickFresh_of_rel (n := fdn p n X) (fun t => Reached (multiStack n X) s t.1)
    (fun s t => SameStream (multiStack n X) s.1 t.1 ∧ s.2 = t.2) .init (fun s x h => h.tick _) (fun s h => h.reset)
    (fun s h => ⟨hX _ h, rfl⟩) ?_)
  rintro ⟨s, f⟩ ⟨t, f'⟩ x ⟨h, hf⟩
  obtain rfl : f = f' := hf
  have := h.tick (fun c => x c + f c)
  exact ⟨⟨this.1, congrArg (hadFrame p) this.2⟩, this.2⟩

/-- **C87, reset.** A reset reverb is as new, with any loop filter that a reset makes new. -/
theorem C87_reset (R : Rev2) {F : Node ℝ 1 1} {f : F.σ} (hF : ResetFresh F f) (hash : Nat → BitVec 64) : ResetFresh (reverb2 R F) (reverb2New R F f hash) :=
  C19_graph (graph2 R F) (graph2_sound R F)
    ((((prepassNew R.sr (224 / defaultSr) (340 / defaultSr), prepassNew R.sr (247 / defaultSr) (366 / defaultSr)), ()), (lines2New R F f hash, fun _ => 0)), panSumNew 31)
    ⟨⟨⟨⟨prepass_fresh _ _ _, prepass_fresh _ _ _⟩, trivial⟩,
      fdn_fresh_of 5 32 _ _ (fun i => oneOf_fresh (line2 R F) i.1 _ (line2_fresh R hF.tickFresh (hash i.1) i.1))⟩, fun _ => panner1_fresh _⟩

/-! ## Cases -/

/-- `reverb2_stereo(10.0, 2.0, 0.5, 1.0, filter)` at 44.1 kHz. -/
def hall : Rev2 := ⟨44100, 10, 2, 0.5, 1, fun _ => 1 / 2, id, fun _ => 0⟩

/-- A loop filter that halves its input. -/
def halve : Node ℝ 1 1 := Node.ofTick (σ := Unit) id fun _ x => ((), fun c => x c / 2)

theorem halve_passive : Reverb.PassiveFrom halve (fun _ => True) (fun _ => 0) () :=
  ⟨trivial, rfl, fun _ _ _ => trivial, fun _ _ => le_refl _, fun s x _ => by
    show (x 0 / 2) ^ 2 + 0 ≤ x 0 ^ 2 + 0
    nlinarith [sq_nonneg (x 0)]⟩

example (x : Nat → Frame ℝ 2) (k : Nat) (hk : k < 1708) : (reverb2 hall halve).stream (reverb2New hall halve () (fun _ => 0)) x k 0 = 0 := by
  refine C87_onset hall (fun _ => by norm_num [hall]) (by norm_num [hall]) (by norm_num [hall]) halve () _ x k (lt_of_lt_of_le hk (Nat.le_floor ?_)) 0
  norm_num [hall, short2]

example (x : Nat → Frame ℝ 2) (B : ℝ) (hB : ∀ n, energy x n ≤ B) :
    _root_.Filter.Tendsto (fun k => (reverb2 hall halve).stream (reverb2New hall halve () (fun _ => 0)) x k 0) _root_.Filter.atTop (nhds 0) :=
  C87_dies_out hall (fun _ => by norm_num [hall]) (by norm_num [hall]) (by norm_num [hall]) (by norm_num [hall]) (by norm_num [hall]) (by norm_num [hall]) (by norm_num [hall])
    (by norm_num [hall]) halve_passive _ x B hB 0

end Fundsp.Effect
