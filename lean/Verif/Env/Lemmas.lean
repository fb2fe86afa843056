import Verif.Env.Model
import Mathlib.Tactic.Linarith
import Mathlib.Tactic.Positivity
import Mathlib.Tactic.FieldSimp

/-! # Envelopes: blocks are ticks -/

noncomputable section
namespace Fundsp.Env

variable {i o : Nat} {S : Type}

/-- The shortest segment is at least a sample. -/
def EnvSt.Slow (s : EnvSt o S) : Prop := 0 < s.dt ∧ s.dt ≤ 0.75 * s.interval

/-- The segment ended less than a sample ago, if it did. -/
def EnvSt.Lag (s : EnvSt o S) : Prop := s.t < s.t1 + s.dt

/-- What the block loop needs to know of a segment change. -/
structure Good (nx : Frame ℝ i → EnvSt o S → EnvSt o S) : Prop where
  t : ∀ x s, (nx x s).t = s.t
  dt : ∀ x s, (nx x s).dt = s.dt
  interval : ∀ x s, (nx x s).interval = s.interval
  t1 : ∀ x s, s.Slow → s.t1 + s.dt ≤ (nx x s).t1

/-- `j` steps within a segment. -/
def EnvSt.adv (j : Nat) (s : EnvSt o S) : EnvSt o S := { s with v := fun c => (fun y => y + s.vd c)^[j] (s.v c), t := s.t + j * s.dt }

theorem adv_zero (s : EnvSt o S) : s.adv 0 = s := by
  unfold EnvSt.adv; simp

theorem step_adv (j : Nat) (s : EnvSt o S) : (s.adv j).step = s.adv (j + 1) := by
  unfold EnvSt.adv EnvSt.step
  simp only [Function.iterate_succ_apply']
  congr 1
  push_cast; ring

/-- The sample-by-sample machine. -/
abbrev mach (nx : Frame ℝ i → EnvSt o S → EnvSt o S) : Mealy ℝ i o := ⟨EnvSt o S, envTick nx⟩

section
variable {nx : Frame ℝ i → EnvSt o S → EnvSt o S} (hg : Good nx)
include hg

theorem norm_slow (x : Frame ℝ i) {s : EnvSt o S} (h : s.Slow) : (s.norm (nx x)).Slow := by
  unfold EnvSt.norm
  split
  · unfold EnvSt.Slow; rw [hg.dt, hg.interval]; exact h
  · exact h

theorem norm_lt (x : Frame ℝ i) {s : EnvSt o S} (h : s.Slow) (hl : s.Lag) : (s.norm (nx x)).t < (s.norm (nx x)).t1 := by
  unfold EnvSt.norm
  split
  · rw [hg.t]; exact lt_of_lt_of_le hl (hg.t1 x s h)
  · rename_i h'; exact not_le.1 h'

theorem tick_inv (x : Frame ℝ i) {s : EnvSt o S} (h : s.Slow) (hl : s.Lag) : (envTick nx s x).1.Slow ∧ (envTick nx s x).1.Lag := by
  refine ⟨norm_slow hg x h, ?_⟩
  show (s.norm (nx x)).t + (s.norm (nx x)).dt < (s.norm (nx x)).t1 + (s.norm (nx x)).dt
  have := norm_lt hg x h hl
  linarith

theorem norm_of_lt {x : Frame ℝ i} {s : EnvSt o S} (h : s.t < s.t1) : s.norm (nx x) = s := by
  unfold EnvSt.norm; rw [if_neg (not_le.2 h)]

/-- Within a segment, ticking is advancing. -/
theorem segment_run (m : EnvSt o S) (w : Nat → Frame ℝ i) (L : ℝ) (hd : 0 < m.dt)
    (hL : L = ((m.norm (nx (w 0))).t1 - (m.norm (nx (w 0))).t) / m.dt) (j : Nat) (hj : ((j : ℝ) - 1 < L) ∨ j = 0) :
    (j ≠ 0 → (mach nx).st m w j = (m.norm (nx (w 0))).adv j) ∧ ((j : ℝ) < L → (mach nx).out m w j = ((m.norm (nx (w 0))).adv j).v) := by
  have hdt : (m.norm (nx (w 0))).dt = m.dt := by unfold EnvSt.norm; split <;> simp [hg.dt]
  induction j with
  | zero =>
    refine ⟨fun h => absurd rfl h, fun _ => ?_⟩
    rw [adv_zero]; rfl
  | succ j ih =>
    have hjL : (j : ℝ) < L := by
      rcases hj with h | h
      · push_cast at h; linarith
      · exact absurd h (by omega)
    obtain ⟨i1, i2⟩ := ih (by left; linarith)
    have key : (mach nx).st m w (j + 1) = (m.norm (nx (w 0))).adv (j + 1) := by
      show (((mach nx).st m w j : EnvSt o S).norm (nx (w j))).step = _
      cases j with
      | zero => rw [← step_adv, adv_zero]; rfl
      | succ j =>
        rw [i1 (by omega)]
        rw [norm_of_lt hg, step_adv]
        show (m.norm (nx (w 0))).t + ((j + 1 : Nat) : ℝ) * (m.norm (nx (w 0))).dt < (m.norm (nx (w 0))).t1
        rw [hL, lt_div_iff₀ hd] at hjL
        rw [hdt]; linarith
    refine ⟨fun _ => key, fun hlt => ?_⟩
    show (((mach nx).st m w (j + 1) : EnvSt o S).norm (nx (w (j + 1)))).v = _
    rw [key, norm_of_lt hg]
    show (m.norm (nx (w 0))).t + ((j + 1 : Nat) : ℝ) * (m.norm (nx (w 0))).dt < (m.norm (nx (w 0))).t1
    rw [hL, lt_div_iff₀ hd] at hlt
    rw [hdt]; linarith

end

/-- Relation of block states and tick states: the block version may have entered the next segment early. -/
def Rel (eager : Bool) (nx : Frame ℝ i → EnvSt o S → EnvSt o S) (s m : EnvSt o S) : Prop :=
  m.Slow ∧ m.Lag ∧ (s = m ∨ (eager = true ∧ m.t1 ≤ m.t ∧ ∃ x, s = nx x m))

theorem samplesLeft_eq {s : EnvSt o S} (hd : 0 < s.dt) (h : s.t < s.t1) :
    1 ≤ ⌈(s.t1 - s.t) / s.dt⌉ ∧ (∀ n : Nat, n ≤ 64 → (n ≤ s.samplesLeft ↔ (n : ℤ) ≤ ⌈(s.t1 - s.t) / s.dt⌉)) := by
  have h1 : 1 ≤ ⌈(s.t1 - s.t) / s.dt⌉ := by
    rw [Int.one_le_ceil_iff]; exact div_pos (by linarith) hd
  refine ⟨h1, fun n hn => ?_⟩
  unfold EnvSt.samplesLeft
  generalize ⌈(s.t1 - s.t) / s.dt⌉ = c at *
  have e : max (-2 ^ 63) (min (2 ^ 63 - 1) c) % 2 ^ 64 = min (2 ^ 63 - 1) c := by
    rw [max_eq_right (by omega)]
    exact Int.emod_eq_of_lt (by omega) (by omega)
  rw [e]
  omega

theorem loop_spec {eager : Bool} {nx : Frame ℝ i → EnvSt o S → EnvSt o S} (hg : Good nx) {size : Nat} (hsz : size ≤ 64) (inp : Buf ℝ i) : ∀ fuel k (s : EnvSt o S) (out : Buf ℝ o) (m : EnvSt o S),
    size - k < fuel → k ≤ size → (k < size → m.Slow ∧ m.Lag ∧ s = m.norm (nx (inp.frame k))) → (k = size → Rel eager nx s m) →
    ∃ r, envLoop eager nx size inp fuel k s out = some r ∧
      Rel eager nx r.1 ((mach nx).st m (fun j => inp.frame (k + j)) (size - k)) ∧
      (∀ j, j < size - k → r.2.frame (k + j) = (mach nx).out m (fun j => inp.frame (k + j)) j) ∧ (∀ j, j < k → r.2.frame j = out.frame j) := by
  intro fuel
  induction fuel with
  | zero => intro k s out m h; omega
  | succ fuel ih =>
    intro k s out m hfuel hk hlt heq
    by_cases hks : k < size
    · obtain ⟨hslow, hlag, hs⟩ := hlt hks
      have hdm : 0 < m.dt := hslow.1
      have hsd : s.dt = m.dt := by rw [hs]; unfold EnvSt.norm; split <;> simp [hg.dt]
      have hst : s.t < s.t1 := by rw [hs]; exact norm_lt hg _ hslow hlag
      obtain ⟨hc1, hcn⟩ := samplesLeft_eq (by rw [hsd]; exact hdm) hst
      have hLdef : ∀ n : Nat, (n : ℝ) - 1 < (s.t1 - s.t) / m.dt ↔ (n : ℤ) ≤ ⌈(s.t1 - s.t) / s.dt⌉ := by
        intro n
        rw [hsd, ← Int.sub_one_lt_iff, Int.lt_ceil]
        push_cast; rfl
      -- number of samples
      have hn1 : 1 ≤ min (size - k) s.samplesLeft := by
        have := (hcn 1 (by omega)).2 (by simpa using hc1)
        omega
      have hn2 : min (size - k) s.samplesLeft ≤ size - k := min_le_left _ _
      have hn3 : min (size - k) s.samplesLeft ≤ s.samplesLeft := min_le_right _ _
      have hn4 : min (size - k) s.samplesLeft = s.samplesLeft ∨ (min (size - k) s.samplesLeft = size - k ∧ size - k < s.samplesLeft) := by omega
      rw [envLoop, if_pos hks]
      simp only
      generalize min (size - k) s.samplesLeft = n at *
      have hn64 : n ≤ 64 := by omega
      have hnc := (hcn n hn64).1 hn3
      have hrun := fun j hj => segment_run hg m (fun j => inp.frame (k + j)) ((s.t1 - s.t) / m.dt) hdm (by rw [hs]; rfl) j hj
      simp only [Nat.add_zero] at hrun
      rw [← hs] at hrun
      have hstn : (mach nx).st m (fun j => inp.frame (k + j)) n = s.adv n := (hrun n (Or.inl ((hLdef n).2 hnc))).1 (by omega)
      have hout : ∀ j, j < n → (mach nx).out m (fun j => inp.frame (k + j)) j = (s.adv j).v := by
        intro j hj
        have : ((j + 1 : Nat) : ℝ) - 1 < (s.t1 - s.t) / m.dt := (hLdef (j + 1)).2 (le_trans (by exact_mod_cast hj) hnc)
        push_cast at this
        exact (hrun j (Or.inl (by linarith))).2 (by linarith)
      have hinv : ∀ j, ((mach nx).st m (fun j => inp.frame (k + j)) j : EnvSt o S).Slow ∧ ((mach nx).st m (fun j => inp.frame (k + j)) j : EnvSt o S).Lag := by
        intro j
        induction j with
        | zero => exact ⟨hslow, hlag⟩
        | succ j ihj => exact tick_inv hg _ ihj.1 ihj.2
      obtain ⟨hsl, hla⟩ := hinv n
      rw [hstn] at hsl hla
      -- the segment ends exactly when all its samples are used
      have hend : n = s.samplesLeft → (s.adv n).t1 ≤ (s.adv n).t := by
        intro hnl
        by_contra hcon
        have hcon : s.t + n * s.dt < s.t1 := not_le.1 hcon
        have h2 : ((n + 1 : Nat) : ℝ) - 1 < (s.t1 - s.t) / m.dt := by
          rw [lt_div_iff₀ hdm, ← hsd]; push_cast; linarith
        have h3 := (hLdef (n + 1)).1 h2
        by_cases h64 : n + 1 ≤ 64
        · have := (hcn (n + 1) h64).2 h3
          omega
        · -- 64 samples left is still below the saturation
          have hcc : s.samplesLeft = (min (2 ^ 63 - 1) ⌈(s.t1 - s.t) / s.dt⌉).toNat := by
            unfold EnvSt.samplesLeft
            generalize ⌈(s.t1 - s.t) / s.dt⌉ = c at *
            rw [max_eq_right (by omega), Int.emod_eq_of_lt (by omega) (by omega)]
          rw [hcc] at hnl
          generalize ⌈(s.t1 - s.t) / s.dt⌉ = c at *
          push_cast at h3
          omega
      have hmore : n ≠ s.samplesLeft → n = size - k ∧ (s.adv n).t < (s.adv n).t1 := by
        intro hne
        rcases hn4 with h | ⟨h, h'⟩
        · exact absurd h hne
        · refine ⟨h, ?_⟩
          have : n + 1 ≤ s.samplesLeft := by omega
          have hcc : s.samplesLeft = (min (2 ^ 63 - 1) ⌈(s.t1 - s.t) / s.dt⌉).toNat := by
            unfold EnvSt.samplesLeft
            generalize ⌈(s.t1 - s.t) / s.dt⌉ = c at *
            rw [max_eq_right (by omega), Int.emod_eq_of_lt (by omega) (by omega)]
          have h3 : ((n + 1 : Nat) : ℤ) ≤ ⌈(s.t1 - s.t) / s.dt⌉ := by
            rw [hcc] at this
            generalize ⌈(s.t1 - s.t) / s.dt⌉ = c at *
            omega
          have h4 := (hLdef (n + 1)).2 h3
          rw [lt_div_iff₀ hdm, ← hsd] at h4
          push_cast at h4
          show s.t + n * s.dt < s.t1
          linarith
      -- the state after the segment
      have hadv : ({ s with v := fun c => (fun y => y + s.vd c)^[n] (s.v c), t := s.t + n * s.dt } : EnvSt o S) = s.adv n := rfl
      rw [hadv]
      obtain ⟨r, hr, hrel, ho, hkeep⟩ := ih (k + n)
        (if n = s.samplesLeft ∧ (eager = true ∨ k + n < size) then nx (inp.frame (k + n)) (s.adv n) else s.adv n)
        (fun c j => if k ≤ j ∧ j < k + n then (fun y => y + s.vd c)^[j - k] (s.v c) else out c j) (s.adv n) (by omega) (by omega)
        (by
          intro hlt'
          refine ⟨hsl, hla, ?_⟩
          have hnl : n = s.samplesLeft := by
            by_contra hne
            have := (hmore hne).1
            omega
          rw [if_pos ⟨hnl, Or.inr hlt'⟩]
          unfold EnvSt.norm
          rw [if_pos (hend hnl)])
        (by
          intro he
          refine ⟨hsl, hla, ?_⟩
          by_cases hc : n = s.samplesLeft ∧ (eager = true ∨ k + n < size)
          · rw [if_pos hc]
            right
            refine ⟨hc.2.resolve_right (by omega), hend hc.1, _, rfl⟩
          · rw [if_neg hc]; left; rfl)
      have hshift : (fun j => inp.frame (k + n + j)) = fun j => inp.frame (k + (n + j)) := by funext j; congr 1; omega
      rw [hshift, ← hstn] at hrel ho
      refine ⟨r, hr, ?_, ?_, ?_⟩
      · have := Mealy.st_add (mach nx) m (fun j => inp.frame (k + j)) n (size - (k + n))
        rw [show n + (size - (k + n)) = size - k by omega] at this
        rw [this]
        exact hrel
      · intro j hj
        by_cases hjn : j < n
        · rw [hkeep (k + j) (by omega), hout j hjn]
          funext c
          show (if k ≤ k + j ∧ k + j < k + n then _ else _) = _
          rw [if_pos ⟨by omega, by omega⟩, Nat.add_sub_cancel_left]
          rfl
        · obtain ⟨d, rfl⟩ : ∃ d, j = n + d := ⟨j - n, by omega⟩
          have := ho d (by omega)
          rw [show k + (n + d) = k + n + d by omega, this]
          exact (Mealy.out_add (mach nx) m (fun j => inp.frame (k + j)) n d).symm
      · intro j hj
        rw [hkeep j (by omega)]
        funext c
        show (if k ≤ j ∧ j < k + n then _ else _) = _
        rw [if_neg (by omega)]
        rfl
    · have hke : k = size := by omega
      rw [envLoop, if_neg hks]
      refine ⟨(s, out), rfl, ?_, fun j hj => absurd hj (by omega), fun j _ => rfl⟩
      rw [hke, Nat.sub_self]
      exact heq hke

/-- More fuel changes nothing. -/
theorem loop_mono {eager : Bool} {nx : Frame ℝ i → EnvSt o S → EnvSt o S} {size : Nat} {inp : Buf ℝ i} : ∀ f k (s : EnvSt o S) (out : Buf ℝ o) r, envLoop eager nx size inp f k s out = some r →
    ∀ g, f ≤ g → envLoop eager nx size inp g k s out = some r := by
  intro f
  induction f with
  | zero => intro k s out r h; cases h
  | succ f ih =>
    intro k s out r h g hg
    obtain ⟨g, rfl⟩ : ∃ g', g = g' + 1 := ⟨g - 1, by omega⟩
    rw [envLoop] at h ⊢
    split at h
    · rename_i hk
      rw [if_pos hk]
      exact ih _ _ _ _ h g (by omega)
    · rename_i hk
      rw [if_neg hk]; exact h

theorem run_eq {eager : Bool} {nx : Frame ℝ i → EnvSt o S → EnvSt o S} {size : Nat} {inp : Buf ℝ i} {s : EnvSt o S} {out : Buf ℝ o} {f r}
    (h : envLoop eager nx size inp f 0 s out = some r) : envRun eager nx size inp s out = r := by
  have hex : ∃ fuel r, envLoop eager nx size inp fuel 0 s out = some r := ⟨f, r, h⟩
  unfold envRun
  rw [dif_pos hex]
  have h1 := hex.choose_spec.choose_spec
  have h2 := loop_mono _ _ _ _ _ h1 (max f hex.choose) (le_max_right _ _)
  have h3 := loop_mono _ _ _ _ _ h (max f hex.choose) (le_max_left _ _)
  exact Option.some.inj (h2.symm.trans h3)

theorem run_spec {eager : Bool} {nx : Frame ℝ i → EnvSt o S → EnvSt o S} (hg : Good nx) {size : Nat} (hsz : size ≤ 64) (h0 : 0 < size) (inp : Buf ℝ i) (out : Buf ℝ o) {m : EnvSt o S}
    (hs : m.Slow) (hl : m.Lag) :
    Rel eager nx (envRun eager nx size inp (m.norm (nx (inp.frame 0))) out).1 ((mach nx).st m inp.frame size) ∧
      ∀ j, j < size → (envRun eager nx size inp (m.norm (nx (inp.frame 0))) out).2.frame j = (mach nx).out m inp.frame j := by
  obtain ⟨r, hr, h1, h2, -⟩ := loop_spec (eager := eager) hg hsz inp (size + 1) 0 (m.norm (nx (inp.frame 0))) out m (by omega) (by omega)
    (fun _ => ⟨hs, hl, rfl⟩) (fun h => absurd h (by omega))
  rw [run_eq hr]
  simp only [Nat.zero_add, Nat.sub_zero] at h1 h2
  exact ⟨h1, h2⟩

theorem norm_rel {eager : Bool} {nx : Frame ℝ i → EnvSt o S → EnvSt o S} (hg : Good nx) (hi : eager = true → ∀ x y s, nx x s = nx y s) {s m : EnvSt o S} (h : Rel eager nx s m) (x : Frame ℝ i) :
    s.norm (nx x) = m.norm (nx x) := by
  obtain ⟨h1, h2, h3 | ⟨h3, h4, y, h5⟩⟩ := h
  · rw [h3]
  · have e : m.norm (nx x) = s := by
      unfold EnvSt.norm; rw [if_pos h4, h5]; exact hi h3 _ _ _
    have := norm_lt hg x h1 h2
    rw [e] at this
    rw [norm_of_lt hg this, e]

/-! ## The two kinds of envelope -/

theorem jitter_bounds {r : ℝ} (h0 : 0 ≤ r) (h1 : r ≤ 1) : 0.75 ≤ Fundsp.Math.lerp 0.75 1.25 r ∧ Fundsp.Math.lerp 0.75 1.25 r ≤ 1.25 := by
  unfold Fundsp.Math.lerp; constructor <;> norm_num <;> linarith

theorem next_good {rnd : BitVec 64 → ℝ} (hr : ∀ h, 0 ≤ rnd h ∧ rnd h ≤ 1) (env : ℝ → Frame ℝ o) : Good (fun (_ : Frame ℝ i) => next rnd env) where
  t _ _ := rfl
  dt _ _ := rfl
  interval _ _ := rfl
  t1 _ s hs := by
    show s.t1 + s.dt ≤ s.t1 + Fundsp.Math.lerp 0.75 1.25 (rnd s.thash) * s.interval
    have := (jitter_bounds (hr s.thash).1 (hr s.thash).2).1
    obtain ⟨h1, h2⟩ := hs
    have hi : 0 < s.interval := by linarith
    have := mul_le_mul_of_nonneg_right this hi.le
    linarith

theorem nextIn_good {rnd : BitVec 64 → ℝ} (hr : ∀ h, 0 ≤ rnd h ∧ rnd h ≤ 1) (env : S → ℝ → Frame ℝ i → S × Frame ℝ o) : Good (nextIn rnd env) where
  t x s := by unfold nextIn; split <;> rfl
  dt x s := by unfold nextIn; split <;> rfl
  interval x s := by unfold nextIn; split <;> rfl
  t1 x s hs := by
    have key : s.dt ≤ Fundsp.Math.lerp 0.75 1.25 (rnd s.thash) * s.interval := by
      have := (jitter_bounds (hr s.thash).1 (hr s.thash).2).1
      obtain ⟨h1, h2⟩ := hs
      have hi : 0 < s.interval := by linarith
      have := mul_le_mul_of_nonneg_right this hi.le
      linarith
    unfold nextIn
    split
    · rename_i h
      show s.t1 + s.dt ≤ s.t0 + Fundsp.Math.lerp 0.75 1.25 (rnd s.thash) * s.interval
      rw [h.1, h.2]; linarith
    · show s.t1 + s.dt ≤ s.t1 + Fundsp.Math.lerp 0.75 1.25 (rnd s.thash) * s.interval
      linarith

end Fundsp.Env
