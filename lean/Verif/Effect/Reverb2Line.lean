import Verif.Effect.Reverb2Lemmas

/-! One line of `reverb2_stereo`: lemmas for C87. -/

noncomputable section
namespace Fundsp.Effect
open Fundsp.Delay Fundsp.Filter Fundsp.Pan Fundsp.Env Finset

/-! ## Ranges -/

theorem clamp_room (room : ℝ) : 10 ≤ Math.clamp 10 30 room ∧ Math.clamp 10 30 room ≤ 30 := by
  unfold Math.clamp
  exact ⟨le_min (le_max_right _ _) (by norm_num), min_le_right _ _⟩

theorem delayMin_range (room : ℝ) : 0.04 ≤ delayMin room ∧ delayMin room ≤ 0.1 := by
  obtain ⟨h1, h2⟩ := clamp_room room
  unfold delayMin
  constructor <;> linarith

theorem delayStep_eq (room : ℝ) : delayStep room = max (delayMin room) 0.062 / 32 := by
  unfold delayStep delayMax
  congr 1
  rcases le_total (delayMin room) 0.062 with h | h
  · rw [max_eq_right (by linarith), max_eq_right h]; ring
  · rw [max_eq_left (by linarith), max_eq_left h]; ring

theorem delayStep_range (room : ℝ) : 0.062 / 32 ≤ delayStep room ∧ delayStep room ≤ 0.1 / 32 := by
  rw [delayStep_eq]
  have h := (delayMin_range room).2
  constructor
  · exact div_le_div_of_nonneg_right (le_max_right _ _) (by norm_num)
  · exact div_le_div_of_nonneg_right (max_le h (by norm_num)) (by norm_num)

theorem lineDelay_range (room : ℝ) (i : Fin 32) : delayMin room - 11 / 44100 ≤ lineDelay room i.1 ∧ lineDelay room i.1 + lineVar ≤ 0.2 := by
  obtain ⟨h1, h2⟩ := delayStep_range room
  have h3 := (delayMin_range room).2
  unfold lineDelay allpassDelay defaultSr lineVar
  refine ⟨?_, ?_⟩ <;> fin_cases i <;> simp [lineOrder, allpassTable] <;> linarith

theorem gain2_range {room time : ℝ} (ht : 0 < time) : 0 < loopGain2 room time ∧ loopGain2 room time < 1 := by
  have h1 : (0 : ℝ) < (10 : ℝ) ^ ((-60 : ℝ) / 20) := Real.rpow_pos_of_pos (by norm_num) _
  have h2 : (10 : ℝ) ^ ((-60 : ℝ) / 20) < 1 := Real.rpow_lt_one_of_one_lt_of_neg (by norm_num) (by norm_num)
  have h3 := (delayMin_range room).1
  exact ⟨Real.rpow_pos_of_pos h1 _, Real.rpow_lt_one h1.le h2 (by have : 0 < delayMin room := by linarith
                                                                  positivity)⟩

theorem diffuse_range {diffusion : ℝ} (h0 : 0 ≤ diffusion) (h1 : diffusion ≤ 1) : |diffuse diffusion| < 1 := by
  unfold diffuse Math.lerp
  rw [abs_lt]
  constructor <;> linarith

/-! ## The modulation -/

/-- Length of line `i` in seconds at sample `k`. -/
def modAt (R : Rev2) (hash : BitVec 64) (i k : Nat) : ℝ :=
  (envelope R.rnd (lineMod R.noise R.room R.speed i)).stream (newSt (lineMod R.noise R.room R.speed i) 0.01 R.sr hash) (fun _ c => c.elim0) k 0

theorem lineMod_eq (R : Rev2) (i : Nat) (t : ℝ) : lineMod R.noise R.room R.speed i t 0 = lineDelay R.room i + 0.001 * R.noise i (t * R.speed * 0.5) := by
  unfold lineMod Math.lerp11 Math.lerp lineVar
  ring

theorem lineMod_lip (R : Rev2) (i : Nat) (s t : ℝ) : |lineMod R.noise R.room R.speed i t 0 - lineMod R.noise R.room R.speed i s 0| ≤ 0.0012 * |R.speed| * |t - s| := by
  rw [lineMod_eq, lineMod_eq]
  have h := Math.C33_spline_noise_slope R.hash64a R.rnd2 (BitVec.ofNat 64 i) (s * R.speed * 0.5) (t * R.speed * 0.5)
  have e : |t * R.speed * 0.5 - s * R.speed * 0.5| = 0.5 * |R.speed| * |t - s| := by
    rw [show t * R.speed * 0.5 - s * R.speed * 0.5 = 0.5 * R.speed * (t - s) by ring, abs_mul, abs_mul, abs_of_pos (by norm_num : (0 : ℝ) < 0.5)]
  rw [e] at h
  have e2 : ∀ a b : ℝ, |lineDelay R.room i + 0.001 * a - (lineDelay R.room i + 0.001 * b)| = 0.001 * |a - b| := by
    intro a b
    rw [show lineDelay R.room i + 0.001 * a - (lineDelay R.room i + 0.001 * b) = 0.001 * (a - b) by ring, abs_mul, abs_of_pos (by norm_num : (0 : ℝ) < 0.001)]
  rw [e2]
  have h2 : |R.noise i (t * R.speed * 0.5) - R.noise i (s * R.speed * 0.5)| ≤ 2.4 * (0.5 * |R.speed| * |t - s|) := h
  linarith

theorem mod_interp (R : Rev2) (hr : ∀ h, 0 ≤ R.rnd h ∧ R.rnd h ≤ 1) (hsr : 134 ≤ R.sr) (hash : BitVec 64) (i k : Nat) :
    ∃ n, point R.rnd hash 0.01 n ≤ k / R.sr ∧ k / R.sr < point R.rnd hash 0.01 (n + 1) ∧
      modAt R hash i k = (1 - (k / R.sr - point R.rnd hash 0.01 n) / (point R.rnd hash 0.01 (n + 1) - point R.rnd hash 0.01 n)) * lineMod R.noise R.room R.speed i (point R.rnd hash 0.01 n) 0
        + (k / R.sr - point R.rnd hash 0.01 n) / (point R.rnd hash 0.01 (n + 1) - point R.rnd hash 0.01 n) * lineMod R.noise R.room R.speed i (point R.rnd hash 0.01 (n + 1)) 0 := by
  have hs : (0 : ℝ) < R.sr := by linarith
  have hd : 1 / R.sr ≤ 0.75 * 0.01 := by
    rw [div_le_iff₀ hs]; linarith
  obtain ⟨n, h1, h2, h3⟩ := C54_interpolation_partial R.rnd hr (lineMod R.noise R.room R.speed i)
    (⟨0, 0, 0, 0, 0, 0, 0, 0, 0.01, 1 / R.sr, hash, ()⟩ : EnvSt 1 Unit) (by show 0 < 1 / R.sr; positivity) hd (fun _ c => c.elim0) k
  have e : (k : ℝ) * (1 / R.sr) = k / R.sr := by ring
  simp only at h1 h2 h3
  rw [e] at h1 h2 h3
  exact ⟨n, h1, h2, h3 0⟩

theorem point_lt (R : Rev2) (hr : ∀ h, 0 ≤ R.rnd h ∧ R.rnd h ≤ 1) (hash : BitVec 64) (n : Nat) :
    0.0075 ≤ point R.rnd hash 0.01 (n + 1) - point R.rnd hash 0.01 n ∧ point R.rnd hash 0.01 (n + 1) - point R.rnd hash 0.01 n ≤ 0.0125 := by
  obtain ⟨-, h1, h2⟩ := C54_jitter R.rnd hr hash 0.01 (by norm_num) n
  constructor <;> linarith

theorem mod_range (R : Rev2) (hr : ∀ h, 0 ≤ R.rnd h ∧ R.rnd h ≤ 1) (hsr : 134 ≤ R.sr) (hash : BitVec 64) (i k : Nat) :
    |modAt R hash i k - lineDelay R.room i| ≤ 0.001 := by
  obtain ⟨n, h1, h2, h3⟩ := mod_interp R hr hsr hash i k
  have hp := point_lt R hr hash n
  have b : ∀ t, |lineMod R.noise R.room R.speed i t 0 - lineDelay R.room i| ≤ 0.001 := by
    intro t
    rw [lineMod_eq, add_sub_cancel_left, abs_mul, abs_of_pos (by norm_num : (0 : ℝ) < 0.001)]
    have := Math.C33_spline_noise R.hash64a R.rnd2 (BitVec.ofNat 64 i) (t * R.speed * 0.5)
    have h' : |R.noise i (t * R.speed * 0.5)| ≤ 1 := this
    linarith
  rw [h3]
  obtain ⟨θ, hθ⟩ : ∃ θ, θ = (k / R.sr - point R.rnd hash 0.01 n) / (point R.rnd hash 0.01 (n + 1) - point R.rnd hash 0.01 n) := ⟨_, rfl⟩
  have t0 : 0 ≤ θ := by rw [hθ]; exact div_nonneg (by linarith) (by linarith)
  have t1 : θ ≤ 1 := by rw [hθ]; exact (div_le_one (by linarith)).2 (by linarith)
  rw [← hθ]
  have b0 := abs_le.1 (b (point R.rnd hash 0.01 n))
  have b1 := abs_le.1 (b (point R.rnd hash 0.01 (n + 1)))
  rw [abs_le]
  constructor
  · nlinarith [mul_le_mul_of_nonneg_left b0.1 (by linarith : 0 ≤ 1 - θ), mul_le_mul_of_nonneg_left b1.1 t0]
  · nlinarith [mul_le_mul_of_nonneg_left b0.2 (by linarith : 0 ≤ 1 - θ), mul_le_mul_of_nonneg_left b1.2 t0]

theorem mod_slow (R : Rev2) (hr : ∀ h, 0 ≤ R.rnd h ∧ R.rnd h ≤ 1) (hsr : 134 ≤ R.sr) (hash : BitVec 64) (i k : Nat) :
    |modAt R hash i (k + 1) * R.sr - modAt R hash i k * R.sr| ≤ 0.0012 * |R.speed| := by
  have hs : (0 : ℝ) < R.sr := by linarith
  obtain ⟨m, a1, a2, a3⟩ := mod_interp R hr hsr hash i k
  obtain ⟨n, b1, b2, b3⟩ := mod_interp R hr hsr hash i (k + 1)
  have hst : (k : ℝ) / R.sr ≤ ((k + 1 : Nat) : ℝ) / R.sr := div_le_div_of_nonneg_right (by push_cast; linarith) hs.le
  have h := interp_lip (e := fun t => lineMod R.noise R.room R.speed i t 0) (L := 0.0012 * |R.speed|) (fun s t => lineMod_lip R i s t)
    (P := point R.rnd hash 0.01) (fun n => by linarith [(point_lt R hr hash n).1]) hst a1 a2 b1 b2
  rw [← a3, ← b3] at h
  rw [← sub_mul, abs_mul, abs_of_pos hs]
  have e : ((k + 1 : Nat) : ℝ) / R.sr - k / R.sr = 1 / R.sr := by push_cast; ring
  rw [e] at h
  calc _ ≤ 0.0012 * |R.speed| * (1 / R.sr) * R.sr := mul_le_mul_of_nonneg_right h hs.le
    _ = _ := by field_simp

/-! ## The line -/

/-- What goes into the delay of line `i`. -/
def lineFeed (R : Rev2) (F : Node ℝ 1 1) (f : F.σ) (w : Nat → Frame ℝ 1) (k : Nat) : ℝ := F.stream f w k 0 * loopGain2 R.room R.time

theorem line2In_out (R : Rev2) (F : Node ℝ 1 1) (f : F.σ) (hash : BitVec 64) (i : Nat) (w : Nat → Frame ℝ 1) (k : Nat) :
    (line2In R F i).stream ((f, fun _ => loopGain2 R.room R.time), newSt (lineMod R.noise R.room R.speed i) 0.01 R.sr hash) w k 0 = lineFeed R F f w k ∧
    (line2In R F i).stream ((f, fun _ => loopGain2 R.room R.time), newSt (lineMod R.noise R.room R.speed i) 0.01 R.sr hash) w k 1 = modAt R hash i k := by
  have h := stack_out (i := 1) (j := 0) (o := 1) (p := 1) (binop (i := 1) (j := 0) (· * ·) F (constant 1)) (envelope R.rnd (lineMod R.noise R.room R.speed i))
    (f, fun _ => loopGain2 R.room R.time) (newSt (lineMod R.noise R.room R.speed i) 0.01 R.sr hash) w k
  have hb := binop_out (i := 1) (j := 0) (· * ·) F (constant 1) f (fun _ => loopGain2 R.room R.time : Frame ℝ 1) w k
  have hc : ∀ (v : Nat → Frame ℝ 0) (k : Nat), (constant 1).ticks.st (fun _ => loopGain2 R.room R.time : Frame ℝ 1) v k = (fun _ => loopGain2 R.room R.time : Frame ℝ 1) := by
    intro v k
    induction k with
    | zero => rfl
    | succ k ih => exact ih
  constructor
  · refine (congrFun h 0).trans ((congrFun hb 0).trans ?_)
    have := congrFun (hc (fun k => (w k).takeR (i := 1)) k) 0
    exact congrArg (fun a => F.stream f w k 0 * a) this
  · refine (congrFun h 1).trans ?_
    show (envelope R.rnd (lineMod R.noise R.room R.speed i)).ticks.out _ _ k 0 = _
    unfold modAt Node.stream
    congr 2
    funext k c
    exact c.elim0

theorem line2_tap (R : Rev2) (hr : ∀ h, 0 ≤ R.rnd h ∧ R.rnd h ≤ 1) (hsr : 134 ≤ R.sr) (hsr2 : R.sr ≤ 2 ^ 32) (F : Node ℝ 1 1) (f : F.σ) (hash : BitVec 64) (i : Fin 32)
    (w : Nat → Frame ℝ 1) (k : Nat) :
    (pipe (j := 2) (line2In R F i.1) (linNode (realLin (lineDelay R.room i.1 - lineVar) (lineDelay R.room i.1 + lineVar) R.sr) 1)).stream
      (((f, fun _ => loopGain2 R.room R.time), newSt (lineMod R.noise R.room R.speed i.1) 0.01 R.sr hash), linSetup 0 ⌈(lineDelay R.room i.1 + lineVar) * R.sr⌉₊) w k 0
      = lerpAt (lineFeed R F f w) (modAt R hash i.1 k * R.sr) k := by
  have hs : (0 : ℝ) < R.sr := by linarith
  refine (congrFun (pipe_out (j := 2) (line2In R F i.1) (linNode (realLin (lineDelay R.room i.1 - lineVar) (lineDelay R.room i.1 + lineVar) R.sr) 1) _ _ w k) 0).trans ?_
  have hbig : ⌈(lineDelay R.room i.1 + lineVar) * R.sr⌉₊ + 2 ≤ 2 ^ 31 := by
    have h1 : ⌈(lineDelay R.room i.1 + lineVar) * R.sr⌉₊ ≤ 2 ^ 30 := by
      refine Nat.ceil_le.2 ?_
      have := (lineDelay_range R.room i).2
      push_cast
      have h2 : (lineDelay R.room i.1 + lineVar) * R.sr ≤ 0.2 * R.sr := mul_le_mul_of_nonneg_right this hs.le
      norm_num at hsr2 h2 ⊢
      linarith
    omega
  refine (C37_real (lineDelay R.room i.1 - lineVar) (lineDelay R.room i.1 + lineVar) R.sr hs hbig
    (realLin (lineDelay R.room i.1 - lineVar) (lineDelay R.room i.1 + lineVar) R.sr) rfl rfl 1 _ k).trans ?_
  obtain ⟨e0, e1⟩ := line2In_out R F f hash i.1 w k
  have hmod : Math.clamp (lineDelay R.room i.1 - lineVar) (lineDelay R.room i.1 + lineVar) (modAt R hash i.1 k) = modAt R hash i.1 k := by
    have := abs_le.1 (mod_range R hr hsr hash i.1 k)
    unfold Math.clamp lineVar
    rw [max_eq_left (by linarith), min_eq_left (by linarith)]
  have ef : (fun j => (line2In R F i.1).stream ((f, fun _ => loopGain2 R.room R.time), newSt (lineMod R.noise R.room R.speed i.1) 0.01 R.sr hash) w j 0) = lineFeed R F f w :=
    funext fun j => (line2In_out R F f hash i.1 w j).1
  unfold linSpec
  rw [show List.finRange 1 = [0] from rfl, List.foldl_cons, List.foldl_nil]
  simp only [ef]
  show (0 : ℝ) + Math.lerp _ _ _ = _
  have ep : (realLin (lineDelay R.room i.1 - lineVar) (lineDelay R.room i.1 + lineVar) R.sr).pos
      ((line2In R F i.1).stream ((f, fun _ => loopGain2 R.room R.time), newSt (lineMod R.noise R.room R.speed i.1) 0.01 R.sr hash) w k (Fin.succ 0)) = modAt R hash i.1 k * R.sr := by
    show Math.clamp _ _ ((line2In R F i.1).stream _ w k 1) * R.sr = _
    rw [e1, hmod]
  rw [ep]
  unfold lerpAt Math.lerp
  show (0 : ℝ) + (delayed 0 ⌊modAt R hash i.1 k * R.sr⌋₊ (lineFeed R F f w) k * (1 - (modAt R hash i.1 k * R.sr - ⌊modAt R hash i.1 k * R.sr⌋₊)) + delayed 0 (⌊modAt R hash i.1 k * R.sr⌋₊ + 1) (lineFeed R F f w) k * (modAt R hash i.1 k * R.sr - ⌊modAt R hash i.1 k * R.sr⌋₊)) = _
  ring

end Fundsp.Effect
