import Verif.Route.Live
import Verif.Route.Props
import Verif.Param.Props
import Verif.Filter.SvfInProps
import Verif.Filter.SvfResponse
import Verif.Dyn.Props

/-!
# C104: responses asked for while a unit is in use

A unit may be asked for its response at any time. What it answers is to be true of what it does from then on: at the sample rate and with the settings in force.
-/

noncomputable section
namespace Fundsp.Route
open _root_.Filter Topology Fundsp.Filter Fundsp.Param

variable {n o : Nat}

/-- The state in which a unit is asked: after `k` samples, with the settings `ev j` made before sample `j`, including those of `ev k`. -/
def RComp.cur (R : RComp n o) (s : R.σ) (ev : Nat → List Ev) (x : Nat → Frame ℝ n) (k : Nat) : R.σ :=
  (ev k).foldl R.toComp.on (R.toComp.st s ev x k)

/-- Specification. What the unit answers in state `s` about frequency `f` is true of the sound it makes from then on at sample rate `sr`, on inputs of which `ok`
holds: if the signals given describe the inputs, those returned describe the outputs. -/
def TrueFrom (R : RComp n o) (s : R.σ) (f sr : ℝ) (ok : (Nat → Frame ℝ n) → Prop) : Prop :=
  ∀ (A : ℂ) (x : Nat → Frame ℝ n) (sg : SFrame), ok x → HoldsL (2 * Real.pi * f / sr) A sg x →
    HoldsL (2 * Real.pi * f / sr) A (R.route s f sg) (R.toComp.out s (fun _ => []) x)

/-! ## Lemmas -/

theorem phaseStep_eq (f sr : ℝ) : phaseStep f sr = 2 * Real.pi * f / sr := by unfold phaseStep; ring

/-- Parameters and caches in the state in which the unit is asked. -/
theorem cur_seen {H : Type} (R : RComp n o) (step : H → Ev → H) (par : R.σ → H) (good : R.σ → Prop)
    (hon : ∀ s e, good s → good (R.toComp.on s e) ∧ par (R.toComp.on s e) = step (par s) e)
    (htick : ∀ s x, good s → good (R.tick s x).1 ∧ par (R.tick s x).1 = par s)
    (s : R.σ) (hs : good s) (ev : Nat → List Ev) (x : Nat → Frame ℝ n) (k : Nat) :
    good (R.cur s ev x k) ∧ par (R.cur s ev x k) = seen step (par s) ev k := by
  have hf : ∀ (l : List Ev) (s : R.σ), good s → good (l.foldl R.toComp.on s) ∧ par (l.foldl R.toComp.on s) = l.foldl step (par s) := by
    intro l
    induction l with
    | nil => intro s h; exact ⟨h, rfl⟩
    | cons e l ih =>
      intro s h
      obtain ⟨a, b⟩ := hon s e h
      obtain ⟨a', b'⟩ := ih _ a
      exact ⟨a', by rw [List.foldl_cons, b', b]; rfl⟩
  induction k with
  | zero =>
    obtain ⟨a, b⟩ := hf (ev 0) s hs
    exact ⟨a, b.trans (seen_zero _ _ _).symm⟩
  | succ k ih =>
    obtain ⟨i1, i2⟩ := ih
    obtain ⟨t1, t2⟩ := htick _ (x k) i1
    obtain ⟨a, b⟩ := hf (ev (k + 1)) (R.toComp.st s ev x (k + 1)) t1
    refine ⟨a, ?_⟩
    rw [seen_succ, ← i2]
    exact b.trans (congrArg (fun q => (ev (k + 1)).foldl step q) t2)

/-- What a unit plays without events, given a node that follows it step by step. -/
theorem out_follow {m : Nat} (C : Comp n o) (N : Node ℝ m o) (φ : C.σ → N.σ) (inv : C.σ → Prop) (Q : Frame ℝ n → Prop) (π : Frame ℝ n → Frame ℝ m)
    (h : ∀ s x, inv s → Q x → inv (C.tick s x).1 ∧ φ (C.tick s x).1 = (N.tick (φ s) (π x)).1 ∧ (C.tick s x).2 = (N.tick (φ s) (π x)).2)
    (s : C.σ) (hs : inv s) (x : Nat → Frame ℝ n) (hx : ∀ k, Q (x k)) (k : Nat) :
    C.out s (fun _ => []) x k = N.ticks.out (φ s) (fun k => π (x k)) k := by
  have key : ∀ k, inv (C.st s (fun _ => []) x k) ∧ φ (C.st s (fun _ => []) x k) = N.ticks.st (φ s) (fun k => π (x k)) k := by
    intro k
    induction k with
    | zero => exact ⟨hs, rfl⟩
    | succ k ih =>
      obtain ⟨a, b, -⟩ := h _ (x k) ih.1 (hx k)
      refine ⟨a, b.trans ?_⟩
      rw [ih.2]; rfl
  obtain ⟨a, b⟩ := key k
  refine (h _ (x k) a (hx k)).2.2.trans ?_
  rw [b]; rfl

/-- A filter that follows a node with a response answers truthfully. -/
theorem true_filter (R : RComp (n + 1) 1) (N : Node ℝ 1 1) (φ : R.σ → N.σ) (inv : R.σ → Prop) (Q : Frame ℝ (n + 1) → Prop)
    (h : ∀ s x, inv s → Q x → inv (R.tick s x).1 ∧ φ (R.tick s x).1 = (N.tick (φ s) (fun _ => x 0)).1 ∧ (R.tick s x).2 = (N.tick (φ s) (fun _ => x 0)).2)
    {P : N.σ → Prop} {f sr : ℝ} {H : ℂ} (hH : HasResponse N P (2 * Real.pi * f / sr) H) (s : R.σ) (hs : inv s) (hP : P (φ s))
    (hr : ∀ sg, R.route s f sg = filterBy H sg) : TrueFrom R s f sr (fun x => ∀ k, Q (x k)) := by
  intro A x sg hQ hx
  rw [hr]
  refine ⟨rfl, fun c => ?_⟩
  obtain rfl : c = 0 := Subsingleton.elim _ _
  have h0 : Holds (2 * Real.pi * f / sr) A (sg.at 0) (fun k => x k 0) := hx.2 0
  show Holds _ A ((sg.at 0).filter 0 (fun r => r * H)) _
  obtain ⟨G, hG⟩ := hH
  cases hsg : sg.at 0 <;> rw [hsg] at h0 <;> simp only [Sig.filter, Holds] at *
  obtain ⟨d, h0⟩ := h0
  refine ⟨_, AsympExp.congr' (hG (φ s) (fun k _ => x k 0) _ d hP h0) (by ring) rfl (fun k => ?_)⟩
  exact (congrFun (out_follow R.toComp N φ inv Q (fun x _ => x 0) h s hs x hQ k) 0).symm

/-- One sample later. -/
theorem Holds.next {θ : ℝ} {A : ℂ} {sg : Sig} {x : Nat → ℝ} (h : Holds θ A sg x) : Holds θ (A * polar θ) sg (fun k => x (k + 1)) := by
  cases sg with
  | unknown => trivial
  | latency _ => trivial
  | value v => have := AsympExp.next h; rwa [zero_mul] at this
  | response r l =>
    obtain ⟨d, hd⟩ := h
    exact ⟨d, AsympExp.congr' hd.next (by ring) rfl (fun _ => rfl)⟩

theorem Holds.of_next {θ : ℝ} {A : ℂ} {sg : Sig} {x : Nat → ℝ} (h : Holds θ (A * polar θ) sg (fun k => x (k + 1))) : Holds θ A sg x := by
  cases sg with
  | unknown => trivial
  | latency _ => trivial
  | value v => exact AsympExp.of_next (by rw [zero_mul]; exact h)
  | response r l =>
    obtain ⟨d, hd⟩ := h
    exact ⟨d, AsympExp.of_next (AsympExp.congr' hd (by ring) rfl (fun _ => rfl))⟩

theorem out_next (C : Comp n o) (s : C.σ) (x : Nat → Frame ℝ n) (k : Nat) :
    C.out s (fun _ => []) x (k + 1) = C.out (C.tick s (x 0)).1 (fun _ => []) (fun k => x (k + 1)) k := by
  have : ∀ k, C.st s (fun _ => []) x (k + 1) = C.st (C.tick s (x 0)).1 (fun _ => []) (fun k => x (k + 1)) k := by
    intro k
    induction k with
    | zero => rfl
    | succ k ih =>
      show (C.tick (C.st s (fun _ => []) x (k + 1)) (x (k + 1))).1 = _
      rw [ih]; rfl
  show (C.tick (C.st s (fun _ => []) x (k + 1)) (x (k + 1))).2 = _
  rw [this]; rfl

/-- If the answer after the next sample will be the same and true, it is true now. -/
theorem true_of_next (R : RComp n o) (s : R.σ) (f sr : ℝ) (Q : Frame ℝ n → Prop)
    (h : ∀ x, Q x → TrueFrom R (R.tick s x).1 f sr (fun x => ∀ k, Q (x k)) ∧ R.route (R.tick s x).1 f = R.route s f) :
    TrueFrom R s f sr (fun x => ∀ k, Q (x k)) := by
  intro A x sg hQ hx
  obtain ⟨h1, h2⟩ := h (x 0) (hQ 0)
  have := h1 (A * polar (2 * Real.pi * f / sr)) (fun k => x (k + 1)) sg (fun k => hQ (k + 1)) ⟨hx.1, fun c => (hx.2 c).next⟩
  rw [h2] at this
  refine ⟨this.1, fun c => Holds.of_next ?_⟩
  have h3 := this.2 c
  have e : (fun k => R.toComp.out s (fun _ => []) x (k + 1) c) = fun k => R.toComp.out (R.tick s (x 0)).1 (fun _ => []) (fun k => x (k + 1)) k c :=
    funext fun k => congrFun (out_next R.toComp s x k) c
  exact e ▸ h3

theorem pole_lt {sr f : ℝ} (hf : 0 < f) (hsr : 0 < sr) : |poleCoeff sr f| < 1 := by
  unfold poleCoeff
  rw [abs_of_pos (Real.exp_pos _)]
  refine Real.exp_lt_one_iff.2 ?_
  have := Real.pi_pos
  rw [div_lt_iff₀ hsr]
  nlinarith [mul_pos this hf]

theorem TrueFrom.mono {R : RComp n o} {s : R.σ} {f sr : ℝ} {p q : (Nat → Frame ℝ n) → Prop} (h : TrueFrom R s f sr p) (hq : ∀ x, q x → p x) : TrueFrom R s f sr q :=
  fun A x sg hx hs => h A x sg (hq x hx) hs

/-! ## Filters with fixed parameters -/

/-- **C104, lowpole.** -/
theorem C104_lowpole (f0 : ℝ) (ev : Nat → List Ev) (x : Nat → Frame ℝ 1) (k : Nat) (f : ℝ)
    (hf : 0 < (held updCenter (f0, 44100) ev k).1) (hsr : 0 < (held updCenter (f0, 44100) ev k).2) :
    TrueFrom (lowpoleR 0) ((lowpoleR 0).cur (lowpoleNew f0) ev x k) f (held updCenter (f0, 44100) ev k).2 (fun _ => True) := by
  obtain ⟨h1, h2⟩ := cur_seen (lowpoleR 0) (heldStep updCenter) (fun s : LowpoleFull => (s.base.cutoff, s.sr))
    (fun s : LowpoleFull => s.base.coeff = poleCoeff s.sr s.base.cutoff)
    (by
      intro s e h
      cases e with
      | rate sr => exact ⟨rfl, rfl⟩
      | set p => cases p <;> first | exact ⟨rfl, rfl⟩ | exact ⟨h, rfl⟩)
    (fun s x h => ⟨h, rfl⟩) (lowpoleNew f0) rfl ev x k
  change _ = held updCenter (f0, 44100) ev k at h2
  rw [← h2] at hf hsr ⊢
  generalize (lowpoleR 0).cur (lowpoleNew f0) ev x k = s at *
  change LowpoleFull at s
  have hc : |s.base.coeff| < 1 := by rw [h1]; exact pole_lt hf hsr
  refine (true_filter (lowpoleR 0) (lowpoleNode (poleCoeff s.sr) 0) (fun t : LowpoleFull => t.base) (fun t : LowpoleFull => t.sr = s.sr) (fun _ => True)
    ?_ (C44_lowpole (poleCoeff s.sr) s.base.coeff hc _) s rfl rfl (fun sg => ?_)).mono (fun x _ _ => trivial)
  · intro t x ht _
    exact ⟨ht, rfl, rfl⟩
  · show filterBy (lowpoleResponse s.base.coeff (phaseStep f s.sr)) sg = _
    rw [phaseStep_eq]

theorem dc_lt {sr f : ℝ} (hf : 0 < f) (hsr : Real.pi * f < sr) : |dcCoeff sr f| < 1 := by
  have := Real.pi_pos
  have h0 : 0 < sr := lt_trans (by positivity) hsr
  have h1 : 0 < 2 * Real.pi / sr * f := by positivity
  have h2 : 2 * Real.pi / sr * f < 2 := by
    rw [div_mul_eq_mul_div, div_lt_iff₀ h0]; linarith
  unfold dcCoeff
  rw [abs_lt]
  constructor <;> linarith

/-- **C104, dcblock.** -/
theorem C104_dcblock (f0 : ℝ) (ev : Nat → List Ev) (x : Nat → Frame ℝ 1) (k : Nat) (f : ℝ)
    (hf : 0 < (held updCenter (f0, 44100) ev k).1) (hsr : Real.pi * (held updCenter (f0, 44100) ev k).1 < (held updCenter (f0, 44100) ev k).2) :
    TrueFrom dcR (dcR.cur (dcNew f0) ev x k) f (held updCenter (f0, 44100) ev k).2 (fun _ => True) := by
  obtain ⟨h1, h2⟩ := cur_seen dcR (heldStep updCenter) (fun s : DcFull => (s.cutoff, s.sr))
    (fun s : DcFull => s.base.coeff = dcCoeff s.sr s.cutoff)
    (by
      intro s e h
      cases e with
      | rate sr => exact ⟨rfl, rfl⟩
      | set p => cases p <;> first | exact ⟨rfl, rfl⟩ | exact ⟨h, rfl⟩)
    (fun s x h => ⟨h, rfl⟩) (dcNew f0) rfl ev x k
  change _ = held updCenter (f0, 44100) ev k at h2
  rw [← h2] at hf hsr ⊢
  generalize dcR.cur (dcNew f0) ev x k = s at *
  change DcFull at s
  have hc : |s.base.coeff| < 1 := by rw [h1]; exact dc_lt hf hsr
  refine (true_filter dcR dcblockNode (fun t : DcFull => t.base) (fun _ => True) (fun _ => True)
    ?_ (C44_dcblock s.base.coeff hc _) s trivial rfl (fun sg => ?_)).mono (fun x _ _ => trivial)
  · intro t x _ _
    exact ⟨trivial, rfl, rfl⟩
  · show filterBy (dcblockResponse s.base.coeff (phaseStep f s.sr)) sg = _
    rw [phaseStep_eq]

/-- **C104, highpole.** -/
theorem C104_highpole (f0 : ℝ) (ev : Nat → List Ev) (x : Nat → Frame ℝ 1) (k : Nat) (f : ℝ)
    (hf : 0 < (held updCenter (f0, 44100) ev k).1) (hsr : 0 < (held updCenter (f0, 44100) ev k).2) :
    TrueFrom (highpoleR 0) ((highpoleR 0).cur (highpoleNew f0) ev x k) f (held updCenter (f0, 44100) ev k).2 (fun _ => True) := by
  obtain ⟨h1, h2⟩ := cur_seen (highpoleR 0) (heldStep updCenter) (fun s : HighpoleFull => (s.cutoff, s.sr))
    (fun s : HighpoleFull => s.base.coeff = poleCoeff s.sr s.cutoff)
    (by
      intro s e h
      cases e with
      | rate sr => exact ⟨rfl, rfl⟩
      | set p => cases p <;> first | exact ⟨rfl, rfl⟩ | exact ⟨h, rfl⟩)
    (fun s x h => ⟨h, rfl⟩) (highpoleNew f0) rfl ev x k
  change _ = held updCenter (f0, 44100) ev k at h2
  rw [← h2] at hf hsr ⊢
  generalize (highpoleR 0).cur (highpoleNew f0) ev x k = s at *
  change HighpoleFull at s
  have hc : |s.base.coeff| < 1 := by rw [h1]; exact pole_lt hf hsr
  refine (true_filter (highpoleR 0) highpoleNode (fun t : HighpoleFull => t.base) (fun _ => True) (fun _ => True)
    ?_ (C44_highpole s.base.coeff hc _) s trivial rfl (fun sg => ?_)).mono (fun x _ _ => trivial)
  · intro t x _ _
    exact ⟨trivial, rfl, rfl⟩
  · show filterBy (highpoleResponse s.base.coeff (phaseStep f s.sr)) sg = _
    rw [phaseStep_eq]

theorem eta_lt {d : ℝ} (hd : 0 < d) : |allpoleEta d| < 1 := by
  unfold allpoleEta
  rw [abs_div, abs_of_pos (by linarith : (0 : ℝ) < 1 + d), div_lt_one (by linarith), abs_lt]
  constructor <;> linarith

/-- The coefficient after an event. -/
def etaStep (q : ℝ × ℝ) : Ev → ℝ × ℝ
  | .set (.delay d) => (allpoleEta d, q.2)
  | .set _ => q
  | .rate sr => (q.1, sr)

/-- **C104, allpole.** -/
theorem C104_allpole (d0 : ℝ) (ev : Nat → List Ev) (x : Nat → Frame ℝ 1) (k : Nat) (f : ℝ)
    (hd : 0 < (held updDelay (d0, 44100) ev k).1) :
    TrueFrom (allpoleR 0) ((allpoleR 0).cur (allpoleNew d0, 44100) ev x k) f (held updDelay (d0, 44100) ev k).2 (fun _ => True) := by
  obtain ⟨-, h2⟩ := cur_seen (allpoleR 0) etaStep (fun s : PoleZero ℝ × ℝ => (s.1.coeff, s.2)) (fun _ => True)
    (by
      intro s e h
      cases e with
      | rate sr => exact ⟨trivial, rfl⟩
      | set p => cases p <;> exact ⟨trivial, rfl⟩)
    (fun s x h => ⟨h, rfl⟩) (allpoleNew d0, 44100) trivial ev x k
  have e : seen etaStep (allpoleEta d0, (44100 : ℝ)) ev k = (allpoleEta (held updDelay (d0, 44100) ev k).1, (held updDelay (d0, 44100) ev k).2) :=
    (fold_events (heldStep updDelay) etaStep (fun q : ℝ × ℝ => (allpoleEta q.1, q.2)) (fun a e => by
      cases e with
      | rate sr => rfl
      | set p => cases p <;> rfl) ((List.range (k + 1)).flatMap ev) (d0, 44100)).symm
  have h3 := h2.trans e
  generalize (allpoleR 0).cur (allpoleNew d0, 44100) ev x k = s at *
  change PoleZero ℝ × ℝ at s
  obtain ⟨h4, h5⟩ := Prod.mk.inj h3
  have hc : |s.1.coeff| < 1 := by rw [h4]; exact eta_lt hd
  rw [← h5]
  refine (true_filter (allpoleR 0) (allpoleNode 0) (fun t : PoleZero ℝ × ℝ => t.1) (fun _ => True) (fun _ => True)
    ?_ (C44_allpole s.1.coeff hc _) s trivial rfl (fun sg => ?_)).mono (fun x _ _ => trivial)
  · intro t x _ _
    exact ⟨trivial, rfl, rfl⟩
  · show filterBy (allpoleResponse s.1.coeff (phaseStep f s.2)) sg = _
    rw [phaseStep_eq]

/-- A settable biquad plays as the biquad with its coefficients. -/
theorem biquad_follow (c : BiquadCoefs ℝ) (s : BiquadFull) (x : ℝ) (h : s.coefs = c) :
    (s.step x).1.coefs = c ∧ (s.step x).1.base = ((biquadNode c).tick s.base (fun _ => x)).1 ∧
      (fun _ => (s.step x).2 : Frame ℝ 1) = ((biquadNode c).tick s.base (fun _ => x)).2 := by
  subst h; exact ⟨rfl, rfl, rfl⟩

/-- **C104, biquad.** Any stable coefficients, set at any time. -/
theorem C104_biquad (c0 : BiquadCoefs ℝ) (ev : Nat → List Ev) (x : Nat → Frame ℝ 1) (k : Nat) (f : ℝ)
    (hc : Stable (held updBiquad (c0, 44100) ev k).1) :
    TrueFrom biquadR (biquadR.cur (biquadNew c0, 44100) ev x k) f (held updBiquad (c0, 44100) ev k).2 (fun _ => True) := by
  obtain ⟨-, h2⟩ := cur_seen biquadR (heldStep updBiquad) (fun s : BiquadFull × ℝ => (s.1.coefs, s.2)) (fun _ => True)
    (by
      intro s e h
      cases e with
      | rate sr => exact ⟨trivial, rfl⟩
      | set p => cases p <;> exact ⟨trivial, rfl⟩)
    (fun s x h => ⟨h, rfl⟩) (biquadNew c0, 44100) trivial ev x k
  change _ = held updBiquad (c0, 44100) ev k at h2
  rw [← h2] at hc ⊢
  generalize biquadR.cur (biquadNew c0, 44100) ev x k = s at *
  change BiquadFull × ℝ at s
  refine (true_filter biquadR (biquadNode s.1.coefs) (fun t : BiquadFull × ℝ => t.1.base) (fun t : BiquadFull × ℝ => t.1.coefs = s.1.coefs) (fun _ => True)
    ?_ (C44_biquad s.1.coefs hc.1 hc.2 _) s rfl trivial (fun sg => ?_)).mono (fun x _ _ => trivial)
  · intro t x ht _
    exact biquad_follow _ t.1 (x 0) ht
  · show filterBy (biquadResponse s.1.coefs (phaseStep f s.2)) sg = _
    rw [phaseStep_eq]

/-- **C104, butterpass.** -/
theorem C104_butterpass (f0 : ℝ) (ev : Nat → List Ev) (x : Nat → Frame ℝ 1) (k : Nat) (f : ℝ)
    (hf : 0 < (held updCenter (f0, 44100) ev k).1) (hsr : 2 * (held updCenter (f0, 44100) ev k).1 < (held updCenter (f0, 44100) ev k).2) :
    TrueFrom (butterR 0) ((butterR 0).cur (butterNew f0) ev x k) f (held updCenter (f0, 44100) ev k).2 (fun _ => True) := by
  obtain ⟨h1, h2⟩ := cur_seen (butterR 0) (heldStep updCenter) (fun s : ButterFull => (s.cutoff, s.sr))
    (fun s : ButterFull => s.biquad.coefs = butterLowpass s.sr s.cutoff)
    (by
      intro s e h
      cases e with
      | rate sr => exact ⟨rfl, rfl⟩
      | set p => cases p <;> first | exact ⟨rfl, rfl⟩ | exact ⟨h, rfl⟩)
    (fun s x h => ⟨h, rfl⟩) (butterNew f0) rfl ev x k
  change _ = held updCenter (f0, 44100) ev k at h2
  rw [← h2] at hf hsr ⊢
  generalize (butterR 0).cur (butterNew f0) ev x k = s at *
  change ButterFull at s
  have hc : Stable s.biquad.coefs := by rw [h1]; exact C65_butter_stable hf hsr
  refine (true_filter (butterR 0) (biquadNode s.biquad.coefs) (fun t : ButterFull => t.biquad.base) (fun t : ButterFull => t.biquad.coefs = s.biquad.coefs)
    (fun _ => True) ?_ (C44_biquad s.biquad.coefs hc.1 hc.2 _) s rfl trivial (fun sg => ?_)).mono (fun x _ _ => trivial)
  · intro t x ht _
    exact biquad_follow _ t.biquad (x 0) ht
  · show filterBy (biquadResponse s.biquad.coefs (phaseStep f s.sr)) sg = _
    rw [phaseStep_eq]

/-- **C104, resonator.** It ignores settings (see `C90_violation_resonator`), and its answer agrees with that. -/
theorem C104_resonator (f0 q0 : ℝ) (ev : Nat → List Ev) (x : Nat → Frame ℝ 1) (k : Nat) (f : ℝ)
    (hf : 0 < f0) (hq : 0 < q0) (hsr : 2 * f0 < rateAt 44100 ev k) :
    TrueFrom (resonatorR 0) ((resonatorR 0).cur (resonatorNew f0 q0) ev x k) f (rateAt 44100 ev k) (fun _ => True) := by
  obtain ⟨h1, h2⟩ := cur_seen (resonatorR 0) rateStep (fun s : ResonatorFull => s.sr)
    (fun s : ResonatorFull => s.biquad.coefs = resonatorCoefs s.sr f0 q0 ∧ s.center = f0 ∧ s.q = q0)
    (by
      intro s e h
      cases e with
      | rate sr =>
        refine ⟨⟨?_, h.2⟩, rfl⟩
        show resonatorCoefs sr s.center s.q = resonatorCoefs sr f0 q0
        rw [h.2.1, h.2.2]
      | set p => exact ⟨h, rfl⟩)
    (fun s x h => ⟨h, rfl⟩) (resonatorNew f0 q0) ⟨rfl, rfl, rfl⟩ ev x k
  rw [rateAt_seen] at hsr ⊢
  change _ = seen rateStep 44100 ev k at h2
  rw [← h2] at hsr ⊢
  generalize (resonatorR 0).cur (resonatorNew f0 q0) ev x k = s at *
  change ResonatorFull at s
  have hc : Stable s.biquad.coefs := by rw [h1.1]; exact C65_resonator_stable hf hsr hq
  refine (true_filter (resonatorR 0) (biquadNode s.biquad.coefs) (fun t : ResonatorFull => t.biquad.base)
    (fun t : ResonatorFull => t.biquad.coefs = s.biquad.coefs)
    (fun _ => True) ?_ (C44_biquad s.biquad.coefs hc.1 hc.2 _) s rfl trivial (fun sg => ?_)).mono (fun x _ _ => trivial)
  · intro t x ht _
    exact biquad_follow _ t.biquad (x 0) ht
  · show filterBy (biquadResponse s.biquad.coefs (phaseStep f s.sr)) sg = _
    rw [phaseStep_eq]

/-- **C104, follow.** -/
theorem C104_follow (t0 : ℝ) (ev : Nat → List Ev) (x : Nat → Frame ℝ 1) (k : Nat) (f : ℝ) :
    TrueFrom followR (followR.cur (followNew t0) ev x k) f (rateAt 44100 ev k) (fun _ => True) := by
  obtain ⟨h1, h2⟩ := cur_seen followR rateStep (fun s : FollowFull => s.sr) (fun s : FollowFull => 0 < s.base.coeff ∧ s.base.coeff ≤ 1)
    (by
      intro s e h
      cases e with
      | rate sr => exact ⟨halfwayCoeff_mem _, rfl⟩
      | set p => cases p <;> first | exact ⟨halfwayCoeff_mem _, rfl⟩ | exact ⟨h, rfl⟩)
    (fun s x h => ⟨h, rfl⟩) (followNew t0) (halfwayCoeff_mem _) ev x k
  rw [rateAt_seen]
  change _ = seen rateStep 44100 ev k at h2
  rw [← h2]
  generalize followR.cur (followNew t0) ev x k = s at *
  change FollowFull at s
  refine (true_filter followR followNode (fun t : FollowFull => t.base) (fun _ => True)
    (fun _ => True) ?_ (C44_follow s.base.coeff h1.1 h1.2 _) s trivial rfl (fun sg => ?_)).mono (fun x _ _ => trivial)
  · intro t x _ _
    exact ⟨trivial, rfl, rfl⟩
  · show filterBy (followResponse s.base.coeff (phaseStep f s.sr)) sg = _
    rw [phaseStep_eq]

/-- A follower with equal speeds is the symmetric follower. -/
theorem afollow_symmetric (s : AFollowSt ℝ) (x : ℝ) (h : s.acoeffNow = s.rcoeffNow) :
    afollowTick s x = (let r := followTick ⟨s.v1, s.v2, s.v3, s.acoeff, s.acoeffNow⟩ x
      (⟨r.1.v1, r.1.v2, r.1.v3, s.acoeff, s.rcoeff, s.acoeff, s.rcoeff⟩, r.2)) := by
  have e : ∀ i c : ℝ, filterPole i c s.acoeffNow s.acoeffNow = s.acoeffNow * i + (1 - s.acoeffNow) * c := by
    intro i c
    unfold filterPole
    rcases le_total c i with hc | hc
    · rw [max_eq_right (by linarith), max_eq_left (by linarith)]; ring
    · rw [max_eq_left (by linarith), max_eq_right (by linarith)]; ring
  unfold afollowTick followTick
  simp only [← h, e]

/-- **C104, afollow.** With equal attack and release times the answer is true; otherwise the unit answers that it has no response. -/
theorem C104_afollow (a0 r0 : ℝ) (ev : Nat → List Ev) (x : Nat → Frame ℝ 1) (k : Nat) (f : ℝ) :
    TrueFrom afollowR (afollowR.cur (afollowNew a0 r0) ev x k) f (rateAt 44100 ev k) (fun _ => True) := by
  obtain ⟨h1, h2⟩ := cur_seen afollowR rateStep (fun s : AFollowFull => s.sr) (fun s : AFollowFull => 0 < s.base.acoeff ∧ s.base.acoeff ≤ 1)
    (by
      intro s e h
      cases e with
      | rate sr => exact ⟨halfwayCoeff_mem _, rfl⟩
      | set p => cases p <;> first | exact ⟨halfwayCoeff_mem _, rfl⟩ | exact ⟨h, rfl⟩)
    (fun s x h => ⟨h, rfl⟩) (afollowNew a0 r0) (halfwayCoeff_mem _) ev x k
  rw [rateAt_seen]
  change _ = seen rateStep 44100 ev k at h2
  rw [← h2]
  generalize afollowR.cur (afollowNew a0 r0) ev x k = s at *
  change AFollowFull at s
  by_cases he : s.base.acoeff = s.base.rcoeff
  · refine (true_of_next afollowR s f s.sr (fun _ => True) (fun x _ => ⟨?_, ?_⟩)).mono (fun x _ _ => trivial)
    · refine true_filter afollowR followNode (fun t : AFollowFull => ⟨t.base.v1, t.base.v2, t.base.v3, t.base.acoeff, t.base.acoeffNow⟩)
        (fun t : AFollowFull => t.base.acoeff = t.base.rcoeff ∧ t.base.acoeffNow = t.base.acoeff ∧ t.base.rcoeffNow = t.base.rcoeff) (fun _ => True)
        ?_ (C44_follow s.base.acoeff h1.1 h1.2 _) _ ⟨he, rfl, rfl⟩ rfl (fun sg => ?_)
      · intro t y ht _
        have e := afollow_symmetric t.base (y 0) (by rw [ht.2.1, ht.2.2, ht.1])
        refine ⟨⟨ht.1, rfl, rfl⟩, ?_, ?_⟩
        · show (⟨(afollowTick t.base (y 0)).1.v1, (afollowTick t.base (y 0)).1.v2, (afollowTick t.base (y 0)).1.v3, (afollowTick t.base (y 0)).1.acoeff,
            (afollowTick t.base (y 0)).1.acoeffNow⟩ : FollowSt ℝ) = _
          rw [e]; rfl
        · show (fun _ => (afollowTick t.base (y 0)).2) = _
          rw [e]; rfl
      · show (if s.base.acoeff = s.base.rcoeff then filterBy (followResponse s.base.acoeff (phaseStep f s.sr)) sg else _) = _
        rw [if_pos he, phaseStep_eq]
    · rfl
  · intro A x sg _ _
    have e : afollowR.route s f sg = [(sg.at 0).distort 0] := if_neg he
    rw [e]
    refine ⟨rfl, fun c => ?_⟩
    obtain rfl : c = 0 := Subsingleton.elim _ _
    exact holds_distort _ _ _

/-! ## Panner and constant -/

/-- **C104, pan.** -/
theorem C104_pan (v0 : ℝ) (ev : Nat → List Ev) (x : Nat → Frame ℝ 1) (k : Nat) (f : ℝ) :
    TrueFrom panR1 (panR1.cur (Pan.PanSt.ofPan v0) ev x k) f (rateAt 44100 ev k) (fun _ => True) := by
  generalize panR1.cur (Pan.PanSt.ofPan v0) ev x k = s
  change Pan.PanSt at s
  intro A y sg _ hy
  have h0 : Holds (2 * Real.pi * f / rateAt 44100 ev k) A (sg.at 0) (fun k => y k 0) := hy.2 0
  have e : ∀ k, panComp1.out s (fun _ => []) y k = ![s.left * y k 0, s.right * y k 0] := by
    have hs : ∀ k, panComp1.st s (fun _ => []) y k = s := by
      intro k
      induction k with
      | zero => rfl
      | succ k ih => exact ih
    intro k
    show (panComp1.tick (panComp1.st s (fun _ => []) y k) (y k)).2 = _
    rw [hs]; rfl
  refine ⟨rfl, fun c => ?_⟩
  fin_cases c
  · have := holds_scale s.left h0
    refine (congrArg (Holds _ A ((sg.at 0).scale s.left)) (funext fun k => ?_)).mp this
    exact (mul_comm _ _).trans (congrFun (e k) 0).symm
  · have := holds_scale s.right h0
    refine (congrArg (Holds _ A ((sg.at 0).scale s.right)) (funext fun k => ?_)).mp this
    exact (mul_comm _ _).trans (congrFun (e k) 1).symm

/-- **C104, constants.** -/
theorem C104_constant {m : Nat} (v0 : Frame ℝ m) (ev : Nat → List Ev) (x : Nat → Frame ℝ 0) (k : Nat) (f : ℝ) :
    TrueFrom (constR m) ((constR m).cur v0 ev x k) f (rateAt 44100 ev k) (fun _ => True) := by
  generalize (constR m).cur v0 ev x k = s
  change Frame ℝ m at s
  intro A y sg _ _
  have e : ∀ k, (constComp m).out s (fun _ => []) y k = s := by
    have hs : ∀ k, (constComp m).st s (fun _ => []) y k = s := by
      intro k
      induction k with
      | zero => rfl
      | succ k ih => exact ih
    exact hs
  refine holdsL_chans (fun c => ?_)
  rw [dif_pos c.2]
  refine (congrArg (Holds _ A (.value (s c))) (funext fun k => ?_)).mp (AsympExp.const (polar _) (s c))
  exact (congrFun (e k) c).symm

/-! ## State variable filters -/

/-- Parameters for which the filters are stable. -/
def SvfSane (p : SvfParams) : Prop := 0 < p.cutoff ∧ 2 * p.cutoff < p.sr ∧ 0 < p.q ∧ 0 < p.gain

theorem svf_has (m : SvfMode) (p : SvfParams) (h : SvfSane p) (θ : ℝ) : HasResponse (svfNode (m.coefs p)) (fun _ => True) θ (svfResponse m p θ) := by
  obtain ⟨h1, h2, h3, h4⟩ := h
  have ht := C44_svf_cutoff h1 h2
  have ha : 0 < √p.gain := Real.sqrt_pos.2 h4
  have hs : 0 < √(√p.gain) := Real.sqrt_pos.2 ha
  have he : √(√p.gain) * √(√p.gain) = √p.gain := Real.mul_self_sqrt ha.le
  cases m
  · exact C44_svf_lowpass ht h3 θ
  · exact C44_svf_highpass ht h3 θ
  · exact C44_svf_bandpass ht h3 θ
  · exact C44_svf_notch ht h3 θ
  · exact C44_svf_peak ht h3 θ
  · exact C44_svf_allpass ht h3 θ
  · exact C44_svf_bell ht h3 θ ha
  · exact C44_svf_lowshelf ht h3 θ ha hs he
  · exact C44_svf_highshelf ht h3 θ ha hs he

/-- The parameters after an event. -/
def svfStep (p : SvfParams) : Ev → SvfParams
  | .set (.center c) => ⟨p.sr, c, p.q, p.gain⟩
  | .set (.centerQ c q) => ⟨p.sr, c, q, p.gain⟩
  | .set (.centerQGain c q a) => ⟨p.sr, c, q, a⟩
  | .set _ => p
  | .rate sr => ⟨sr, p.cutoff, p.q, p.gain⟩

/-- **C104, state variable filters with fixed parameters**, in all nine modes. -/
theorem C104_svf (m : SvfMode) (p0 : SvfParams) (ev : Nat → List Ev) (x : Nat → Frame ℝ 1) (k : Nat) (f : ℝ)
    (hp : SvfSane (seen svfStep p0 ev k)) :
    TrueFrom (fixedSvfR m) ((fixedSvfR m).cur (FixedSt.new m p0) ev x k) f (seen svfStep p0 ev k).sr (fun _ => True) := by
  obtain ⟨h1, h2⟩ := cur_seen (fixedSvfR m) svfStep (fun s : FixedSt => s.p) (fun s : FixedSt => s.coefs = m.coefs s.p)
    (by
      intro s e h
      cases e with
      | rate sr => exact ⟨rfl, rfl⟩
      | set p => cases p <;> first | exact ⟨rfl, rfl⟩ | exact ⟨h, rfl⟩)
    (fun s x h => ⟨h, rfl⟩) (FixedSt.new m p0) rfl ev x k
  change _ = seen svfStep p0 ev k at h2
  rw [← h2] at hp ⊢
  generalize (fixedSvfR m).cur (FixedSt.new m p0) ev x k = s at *
  change FixedSt at s
  refine (true_filter (fixedSvfR m) (svfNode (m.coefs s.p)) (fun t : FixedSt => t.ic) (fun t : FixedSt => t.coefs = m.coefs s.p)
    (fun _ => True) ?_ (svf_has m s.p hp _) s h1 trivial (fun sg => ?_)).mono (fun x _ _ => trivial)
  · intro t x ht _
    refine ⟨ht, ?_, ?_⟩
    · show (svfTick t.coefs t.ic (x 0)).1 = _
      rw [ht]; rfl
    · show (fun _ => (svfTick t.coefs t.ic (x 0)).2) = _
      rw [ht]; rfl
  · show filterBy (svfResponse m s.p (phaseStep f s.p.sr)) sg = _
    rw [phaseStep_eq]

/-! ## Filters with parameter inputs

These answer with the parameters of the last sample played. So the answer is true of what follows if the parameters at the inputs stay as they were then. -/

/-- **C104, one-pole filters with parameter inputs, partial.** After a sample with parameter `p` at the input, the answer is true as long as `p` stays there. Missing: the
answer before the first sample (`C104_violation_fresh`). -/
theorem C104_lowpole_input_partial (f0 : ℝ) (ev : Nat → List Ev) (x : Nat → Frame ℝ 2) (k : Nat) (f u p : ℝ)
    (hp : 0 < p) (hsr : 0 < rateAt 44100 ev k) :
    TrueFrom (lowpoleR 1) ((lowpoleR 1).tick ((lowpoleR 1).cur (lowpoleNew f0) ev x k) ![u, p]).1 f (rateAt 44100 ev k) (fun x => ∀ k, x k 1 = p) := by
  obtain ⟨h1, h2⟩ := cur_seen (lowpoleR 1) rateStep (fun s : LowpoleFull => s.sr)
    (fun s : LowpoleFull => s.base.coeff = poleCoeff s.sr s.base.cutoff)
    (by
      intro s e h
      cases e with
      | rate sr => exact ⟨rfl, rfl⟩
      | set p => cases p <;> first | exact ⟨rfl, rfl⟩ | exact ⟨h, rfl⟩)
    (by
      intro s x h
      refine ⟨?_, rfl⟩
      show (lowpoleTick (poleCoeff s.sr) 1 s.base x).1.coeff = poleCoeff s.sr (lowpoleTick (poleCoeff s.sr) 1 s.base x).1.cutoff
      unfold lowpoleTick
      by_cases hx : x 1 = s.base.cutoff <;> simp [hx, h])
    (lowpoleNew f0) rfl ev x k
  rw [rateAt_seen] at hsr ⊢
  change _ = seen rateStep 44100 ev k at h2
  rw [← h2] at hsr ⊢
  generalize (lowpoleR 1).cur (lowpoleNew f0) ev x k = s at *
  change LowpoleFull at s
  have hT : ((lowpoleR 1).tick s ![u, p]).1 = (⟨⟨(1 - poleCoeff s.sr p) * u + poleCoeff s.sr p * s.base.value, poleCoeff s.sr p, p⟩, s.sr⟩ : LowpoleFull) := by
    obtain ⟨⟨v, c, g⟩, r⟩ := s
    simp only at h1
    subst h1
    show (⟨(lowpoleTick (poleCoeff r) 1 ⟨v, poleCoeff r g, g⟩ ![u, p]).1, r⟩ : LowpoleFull) = _
    unfold lowpoleTick
    by_cases hx : p = g
    · subst hx; simp
    · simp [hx]
  rw [hT]
  refine true_filter (lowpoleR 1) (lowpoleNode (poleCoeff s.sr) 0) (fun t : LowpoleFull => t.base) (fun t : LowpoleFull => t.sr = s.sr ∧ t.base.cutoff = p)
    (fun y => y 1 = p) ?_ (C44_lowpole (poleCoeff s.sr) (poleCoeff s.sr p) (pole_lt hp hsr) _) _ ⟨rfl, rfl⟩ rfl (fun sg => ?_)
  · intro t y ht hy
    obtain ⟨⟨v, c, g⟩, r⟩ := t
    obtain ⟨h3, h4⟩ := ht
    simp only at h3 h4
    subst h4 h3
    refine ⟨⟨rfl, ?_⟩, ?_, ?_⟩
    · show (lowpoleTick (poleCoeff s.sr) 1 ⟨v, c, g⟩ y).1.cutoff = g
      unfold lowpoleTick; simp [hy]
    · show (lowpoleTick (poleCoeff s.sr) 1 ⟨v, c, g⟩ y).1 = (lowpoleTick (poleCoeff s.sr) 0 ⟨v, c, g⟩ (fun _ => y 0)).1
      unfold lowpoleTick; simp [hy]
    · show (lowpoleTick (poleCoeff s.sr) 1 ⟨v, c, g⟩ y).2 = (lowpoleTick (poleCoeff s.sr) 0 ⟨v, c, g⟩ (fun _ => y 0)).2
      unfold lowpoleTick; simp [hy]
  · show filterBy (lowpoleResponse (poleCoeff s.sr p) (phaseStep f s.sr)) sg = _
    rw [phaseStep_eq]

/-- **C104, highpole with a cutoff input, partial.** As for `lowpole`. -/
theorem C104_highpole_input_partial (f0 : ℝ) (ev : Nat → List Ev) (x : Nat → Frame ℝ 2) (k : Nat) (f u p : ℝ)
    (hp : 0 < p) (hsr : 0 < rateAt 44100 ev k) :
    TrueFrom (highpoleR 1) ((highpoleR 1).tick ((highpoleR 1).cur (highpoleNew f0) ev x k) ![u, p]).1 f (rateAt 44100 ev k) (fun x => ∀ k, x k 1 = p) := by
  have hfol : ∀ (s : HighpoleFull) (y : Frame ℝ 2), s.base.coeff = poleCoeff s.sr s.cutoff → s.follow 1 y = s.setCutoff (y 1) := by
    intro s y h
    obtain ⟨⟨a, b, c⟩, g, r⟩ := s
    simp only at h
    subst h
    unfold HighpoleFull.follow HighpoleFull.setCutoff
    by_cases hx : y 1 = g
    · simp [hx]
    · simp [hx]
  obtain ⟨h1, h2⟩ := cur_seen (highpoleR 1) rateStep (fun s : HighpoleFull => s.sr)
    (fun s : HighpoleFull => s.base.coeff = poleCoeff s.sr s.cutoff)
    (by
      intro s e h
      cases e with
      | rate sr => exact ⟨rfl, rfl⟩
      | set p => cases p <;> first | exact ⟨rfl, rfl⟩ | exact ⟨h, rfl⟩)
    (by
      intro s x h
      have e : ((highpoleR 1).tick s x).1 = ({ s.setCutoff (x 1) with base := (highpoleNode.tick (s.setCutoff (x 1)).base (fun _ => x 0)).1 } : HighpoleFull) := by
        rw [← hfol s x h]; rfl
      rw [e]
      exact ⟨rfl, rfl⟩)
    (highpoleNew f0) rfl ev x k
  rw [rateAt_seen] at hsr ⊢
  change _ = seen rateStep 44100 ev k at h2
  rw [← h2] at hsr ⊢
  generalize (highpoleR 1).cur (highpoleNew f0) ev x k = s at *
  change HighpoleFull at s
  have e : ((highpoleR 1).tick s ![u, p]).1 = ({ s.setCutoff p with base := (highpoleNode.tick (s.setCutoff p).base (fun _ => u)).1 } : HighpoleFull) :=
    (show ((highpoleR 1).tick s ![u, p]).1 = ({ s.follow 1 ![u, p] with base := (highpoleNode.tick (s.follow 1 ![u, p]).base (fun _ => u)).1 } : HighpoleFull) from rfl).trans
      (by rw [hfol s _ h1]; rfl)
  rw [e]
  refine true_filter (highpoleR 1) highpoleNode (fun t : HighpoleFull => t.base) (fun t : HighpoleFull => t.cutoff = p)
    (fun y => y 1 = p) ?_ (C44_highpole (poleCoeff s.sr p) (pole_lt hp hsr) _) _ rfl rfl (fun sg => ?_)
  · intro t y ht hy
    have e : t.follow 1 y = t := by
      change HighpoleFull at t
      unfold HighpoleFull.follow
      simp [hy, ht]
    have e1 : (highpoleR 1).tick t y = (({ t with base := (highpoleNode.tick t.base (fun _ => y 0)).1 } : HighpoleFull), (highpoleNode.tick t.base (fun _ => y 0)).2) :=
      (show (highpoleR 1).tick t y = (({ t.follow 1 y with base := (highpoleNode.tick (t.follow 1 y).base (fun _ => y 0)).1 } : HighpoleFull),
        (highpoleNode.tick (t.follow 1 y).base (fun _ => y 0)).2) from rfl).trans (by rw [e])
    rw [e1]
    exact ⟨ht, rfl, rfl⟩
  · show filterBy (highpoleResponse (poleCoeff s.sr p) (phaseStep f s.sr)) sg = _
    rw [phaseStep_eq]

/-- **C104, allpole with a delay input, partial.** As for `lowpole`. -/
theorem C104_allpole_input_partial (s : PoleZero ℝ × ℝ) (f u p : ℝ) (hp : 0 < p) :
    TrueFrom (allpoleR 1) ((allpoleR 1).tick s ![u, p]).1 f s.2 (fun x => ∀ k, x k 1 = p) := by
  obtain ⟨⟨a, b, c⟩, r⟩ := s
  refine true_filter (allpoleR 1) (allpoleNode 0) (fun t : PoleZero ℝ × ℝ => t.1) (fun t : PoleZero ℝ × ℝ => t.1.coeff = allpoleEta p)
    (fun y => y 1 = p) ?_ (C44_allpole (allpoleEta p) (eta_lt hp) _) _ rfl rfl (fun sg => ?_)
  · intro t y ht hy
    obtain ⟨⟨a, b, c⟩, r⟩ := t
    have ht' : c = allpoleEta p := ht
    subst ht'
    refine ⟨?_, ?_, ?_⟩
    · show (allpoleTick 1 ⟨a, b, allpoleEta p⟩ y).1.coeff = allpoleEta p
      unfold allpoleTick; simp [hy]
    · show (allpoleTick 1 ⟨a, b, allpoleEta p⟩ y).1 = (allpoleTick 0 ⟨a, b, allpoleEta p⟩ (fun _ => y 0)).1
      unfold allpoleTick; simp [hy]
    · show (allpoleTick 1 ⟨a, b, allpoleEta p⟩ y).2 = (allpoleTick 0 ⟨a, b, allpoleEta p⟩ (fun _ => y 0)).2
      unfold allpoleTick; simp [hy]
  · show filterBy (allpoleResponse (allpoleEta p) (phaseStep f r)) sg = _
    rw [phaseStep_eq]

/-- **C104, butterpass with a cutoff input, partial.** As for `lowpole`. -/
theorem C104_butterpass_input_partial (f0 : ℝ) (ev : Nat → List Ev) (x : Nat → Frame ℝ 2) (k : Nat) (f u p : ℝ)
    (hp : 0 < p) (hsr : 2 * p < rateAt 44100 ev k) :
    TrueFrom (butterR 1) ((butterR 1).tick ((butterR 1).cur (butterNew f0) ev x k) ![u, p]).1 f (rateAt 44100 ev k) (fun x => ∀ k, x k 1 = p) := by
  have htick : ∀ (s : ButterFull) (y : Frame ℝ 2), s.biquad.coefs = butterLowpass s.sr s.cutoff →
      (butterR 1).tick s y = (({ s.setCutoff (y 1) with biquad := ((s.setCutoff (y 1)).biquad.step (y 0)).1 } : ButterFull),
        fun _ => ((s.setCutoff (y 1)).biquad.step (y 0)).2) := by
    intro s y h
    rw [← butter_follow s h y]; rfl
  obtain ⟨h1, h2⟩ := cur_seen (butterR 1) rateStep (fun s : ButterFull => s.sr)
    (fun s : ButterFull => s.biquad.coefs = butterLowpass s.sr s.cutoff)
    (by
      intro s e h
      cases e with
      | rate sr => exact ⟨rfl, rfl⟩
      | set p => cases p <;> first | exact ⟨rfl, rfl⟩ | exact ⟨h, rfl⟩)
    (by
      intro s x h
      rw [htick s x h]
      exact ⟨rfl, rfl⟩)
    (butterNew f0) rfl ev x k
  rw [rateAt_seen] at hsr ⊢
  change _ = seen rateStep 44100 ev k at h2
  rw [← h2] at hsr ⊢
  generalize (butterR 1).cur (butterNew f0) ev x k = s at *
  change ButterFull at s
  rw [htick s _ h1]
  have hc := C65_butter_stable hp hsr
  refine true_filter (butterR 1) (biquadNode (butterLowpass s.sr p)) (fun t : ButterFull => t.biquad.base)
    (fun t : ButterFull => t.cutoff = p ∧ t.biquad.coefs = butterLowpass s.sr p ∧ t.sr = s.sr)
    (fun y => y 1 = p) ?_ (C44_biquad _ hc.1 hc.2 _) _ ⟨rfl, rfl, rfl⟩ trivial (fun sg => ?_)
  · intro t y ht hy
    change ButterFull at t
    rw [htick t y (by rw [ht.2.1, ht.2.2, ht.1]), hy]
    have e : (t.setCutoff p).biquad.coefs = butterLowpass s.sr p := by
      show butterLowpass t.sr p = _
      rw [ht.2.2]
    obtain ⟨b1, b2, b3⟩ := biquad_follow _ (t.setCutoff p).biquad (y 0) e
    exact ⟨⟨rfl, b1, ht.2.2⟩, b2, b3⟩
  · show filterBy (biquadResponse (butterLowpass s.sr p) (phaseStep f s.sr)) sg = _
    rw [phaseStep_eq]

/-- **C104, resonator with inputs, partial.** As for `lowpole`. -/
theorem C104_resonator_input_partial (f0 q0 : ℝ) (ev : Nat → List Ev) (x : Nat → Frame ℝ 3) (k : Nat) (f u p q : ℝ)
    (hp : 0 < p) (hq : 0 < q) (hsr : 2 * p < rateAt 44100 ev k) :
    TrueFrom (resonatorR 2) ((resonatorR 2).tick ((resonatorR 2).cur (resonatorNew f0 q0) ev x k) ![u, p, q]).1 f (rateAt 44100 ev k)
      (fun x => ∀ k, x k 1 = p ∧ x k 2 = q) := by
  have htick : ∀ (s : ResonatorFull) (y : Frame ℝ 3), s.biquad.coefs = resonatorCoefs s.sr s.center s.q →
      (resonatorR 2).tick s y = (({ s.setCenterQ (y 1) (y 2) with biquad := ((s.setCenterQ (y 1) (y 2)).biquad.step (y 0)).1 } : ResonatorFull),
        fun _ => ((s.setCenterQ (y 1) (y 2)).biquad.step (y 0)).2) := by
    intro s y h
    rw [← resonator_follow s h y]; rfl
  obtain ⟨h1, h2⟩ := cur_seen (resonatorR 2) rateStep (fun s : ResonatorFull => s.sr)
    (fun s : ResonatorFull => s.biquad.coefs = resonatorCoefs s.sr s.center s.q)
    (by
      intro s e h
      cases e with
      | rate sr => exact ⟨rfl, rfl⟩
      | set p => exact ⟨h, rfl⟩)
    (by
      intro s x h
      rw [htick s x h]
      exact ⟨rfl, rfl⟩)
    (resonatorNew f0 q0) rfl ev x k
  rw [rateAt_seen] at hsr ⊢
  change _ = seen rateStep 44100 ev k at h2
  rw [← h2] at hsr ⊢
  generalize (resonatorR 2).cur (resonatorNew f0 q0) ev x k = s at *
  change ResonatorFull at s
  rw [htick s _ h1]
  have hc := C65_resonator_stable hp hsr hq
  refine true_filter (resonatorR 2) (biquadNode (resonatorCoefs s.sr p q)) (fun t : ResonatorFull => t.biquad.base)
    (fun t : ResonatorFull => (t.center = p ∧ t.q = q) ∧ t.biquad.coefs = resonatorCoefs s.sr p q ∧ t.sr = s.sr)
    (fun y => y 1 = p ∧ y 2 = q) ?_ (C44_biquad _ hc.1 hc.2 _) _ ⟨⟨rfl, rfl⟩, rfl, rfl⟩ trivial (fun sg => ?_)
  · intro t y ht hy
    change ResonatorFull at t
    rw [htick t y (by rw [ht.2.1, ht.2.2, ht.1.1, ht.1.2]), hy.1, hy.2]
    have e : (t.setCenterQ p q).biquad.coefs = resonatorCoefs s.sr p q := by
      show resonatorCoefs t.sr p q = _
      rw [ht.2.2]
    obtain ⟨b1, b2, b3⟩ := biquad_follow _ (t.setCenterQ p q).biquad (y 0) e
    exact ⟨⟨⟨rfl, rfl⟩, b1, ht.2.2⟩, b2, b3⟩
  · show filterBy (biquadResponse (resonatorCoefs s.sr p q) (phaseStep f s.sr)) sg = _
    rw [phaseStep_eq]

/-- **C104, panner with a pan input, partial.** As for `lowpole`. -/
theorem C104_panner_partial (s : Pan.PanSt) (f sr u p : ℝ) :
    TrueFrom panR2 (panR2.tick s ![u, p]).1 f sr (fun x => ∀ k, x k 1 = p) := by
  intro A y sg hp hy
  have h0 : Holds (2 * Real.pi * f / sr) A (sg.at 0) (fun k => y k 0) := hy.2 0
  have e : ∀ t : Pan.PanSt, ∀ k, panComp2.out t (fun _ => []) y k = ![(Pan.PanSt.ofPan p).left * y k 0, (Pan.PanSt.ofPan p).right * y k 0] := by
    intro t k
    show ![(Pan.PanSt.ofPan (y k 1)).left * y k 0, (Pan.PanSt.ofPan (y k 1)).right * y k 0] = _
    rw [hp k]
  refine ⟨rfl, fun c => ?_⟩
  fin_cases c
  · have := holds_scale (Pan.PanSt.ofPan p).left h0
    refine (congrArg (Holds _ A ((sg.at 0).scale (Pan.PanSt.ofPan p).left)) (funext fun k => ?_)).mp this
    exact (mul_comm _ _).trans (congrFun (e _ k) 0).symm
  · have := holds_scale (Pan.PanSt.ofPan p).right h0
    refine (congrArg (Holds _ A ((sg.at 0).scale (Pan.PanSt.ofPan p).right)) (funext fun k => ?_)).mp this
    exact (mul_comm _ _).trans (congrFun (e _ k) 1).symm

/-- **C104, state variable filters with parameter inputs, partial.** After a sample with parameters `u` at the inputs, the answer is true as long as they stay there. -/
theorem C104_svf_input_partial (m : SvfMode) (p0 : SvfParams) (ev : Nat → List Ev) (x : Nat → Frame ℝ m.arity) (k : Nat) (f : ℝ) (u : Frame ℝ m.arity)
    (hp : SvfSane ⟨seen rateStep p0.sr ev k, Frame.rd u 1, Frame.rd u 2, if m.usesGain then Frame.rd u 3 else p0.gain⟩) :
    TrueFrom (svfR m) ((svfR m).tick ((svfR m).cur (SvfSt.new m p0) ev x k) u).1 f (seen rateStep p0.sr ev k)
      (fun w => ∀ j (i : Fin m.arity), 0 < i.1 → w j i = u i) := by
  have htick : ∀ (s : SvfSt) (y : Frame ℝ m.arity), s.Consistent m ∧ s.counter = 0 ∧ s.period = 1 → ((SvfSt.tick m s y).1).Consistent m ∧
      (SvfSt.tick m s y).1.counter = 0 ∧ (SvfSt.tick m s y).1.period = 1 ∧ (SvfSt.tick m s y).1.p = paramsAt m s.p y := by
    intro s y ⟨h1, h2, h3⟩
    have e := latch_eq m s y h1
    rw [if_pos (by omega)] at e
    unfold SvfSt.tick
    rw [e]
    exact ⟨rfl, rfl, h3, rfl⟩
  obtain ⟨⟨h1, h1'⟩, h2⟩ := cur_seen (svfR m) rateStep (fun s : SvfSt => s.p.sr)
    (fun s : SvfSt => (s.Consistent m ∧ s.counter = 0 ∧ s.period = 1) ∧ (m.usesGain = false → s.p.gain = p0.gain))
    (by
      intro s e h
      cases e with
      | rate sr => exact ⟨⟨⟨rfl, h.1.2⟩, h.2⟩, rfl⟩
      | set p => exact ⟨h, rfl⟩)
    (by
      intro s x h
      obtain ⟨a, b, c, d⟩ := htick s x h.1
      refine ⟨⟨⟨a, b, c⟩, fun hg => ?_⟩, ?_⟩
      swap
      · exact (show (SvfSt.tick m s x).1.p.sr = _ by rw [d]; rfl)
      refine (congrArg SvfParams.gain d).trans ?_
      unfold paramsAt
      simp only [hg]
      exact h.2 hg)
    (SvfSt.new m p0) ⟨⟨rfl, rfl, rfl⟩, fun _ => rfl⟩ ev x k
  change _ = seen rateStep p0.sr ev k at h2
  rw [← h2] at hp ⊢
  generalize (svfR m).cur (SvfSt.new m p0) ev x k = s at *
  change SvfSt at s
  obtain ⟨a, b, c, d⟩ := htick s u h1
  have hp' : SvfSane (paramsAt m s.p u) := by
    unfold paramsAt
    by_cases hg : m.usesGain = true
    · rw [if_pos hg] at hp ⊢; exact hp
    · rw [if_neg hg] at hp ⊢
      rw [h1' (by simpa using hg)]; exact hp
  change TrueFrom (svfR m) (SvfSt.tick m s u).1 f s.p.sr _
  generalize (SvfSt.tick m s u).1 = t at *
  intro A w sg hw hx
  have har : 3 ≤ m.arity := by cases m <;> decide
  have hpar : ∀ j, paramsAt m t.p (w j) = paramsAt m s.p u := by
    intro j
    have r : ∀ i, 0 < i → Frame.rd (w j) i = Frame.rd u i := by
      intro i hi
      unfold Frame.rd
      split
      · exact hw j ⟨i, by assumption⟩ hi
      · rfl
    rw [d]
    unfold paramsAt
    simp only [r 1 (by omega), r 2 (by omega), r 3 (by omega)]
    by_cases hg : m.usesGain = true <;> simp [hg]
  have hst : ∀ k, (svfR m).toComp.st t (fun _ => []) w k = (svfIn m).ticks.st t w k := by
    intro k
    induction k with
    | zero => rfl
    | succ k ih => exact congrArg (fun s => (SvfSt.tick m s (w k)).1) ih
  have hout : ∀ k, (svfR m).toComp.out t (fun _ => []) w k 0 = (svfNode (m.coefs (paramsAt m s.p u))).stream t.ic (fun j _ => Frame.rd (w j) 0) k 0 := by
    intro k
    rw [← C82_constant m t a b c w _ hpar k]
    exact congrArg (fun s => (SvfSt.tick m s (w k)).2 0) (hst k)
  refine ⟨rfl, fun ch => ?_⟩
  obtain rfl : ch = 0 := Subsingleton.elim _ _
  have h0 : Holds (2 * Real.pi * f / s.p.sr) A (sg.at 0) (fun k => Frame.rd (w k) 0) := by
    have := hx.2 ⟨0, by omega⟩
    refine (congrArg (Holds _ A (sg.at 0)) (funext fun k => ?_)).mp this
    unfold Frame.rd
    rw [dif_pos (by omega)]
  have e : (svfR m).route t f sg = filterBy (svfResponse m (paramsAt m s.p u) (2 * Real.pi * f / s.p.sr)) sg := by
    show filterBy (svfResponse m t.p (phaseStep f t.p.sr)) sg = _
    rw [phaseStep_eq, d]; rfl
  rw [e]
  obtain ⟨G, hG⟩ := svf_has m _ hp' (2 * Real.pi * f / s.p.sr)
  show Holds _ A ((sg.at 0).filter 0 (fun r => r * _)) _
  cases hsg : sg.at 0 <;> rw [hsg] at h0 <;> simp only [Sig.filter, Holds] at *
  obtain ⟨dd, h0⟩ := h0
  exact ⟨_, AsympExp.congr' (hG t.ic (fun k _ => Frame.rd (w k) 0) _ dd trivial h0) (by ring) rfl (fun k => (hout k).symm)⟩

/-! ## Units without settings -/

/-- **C104, mixers.** -/
theorem C104_mixer (θ : ℝ) (m n : Nat) (M : Frame (Frame ℝ (m + 1)) n) : Sound θ (Rt.mixer m n M) := by
  intro s hs A x sg hx
  have hs' : s = M := hs
  subst hs'
  have hst : ∀ k, (Pan.mixer (m + 1) n).ticks.st s x k = s := by
    intro k
    induction k with
    | zero => rfl
    | succ k ih => exact ih
  refine holdsL_chans (fun c => ?_)
  rw [dif_pos c.2]
  have h0 : Holds θ A ((sg.at 0).scale (s c 0)) (fun k => x k 0 * s c 0) := holds_scale _ (hx.2 0)
  have := holds_foldl (f := fun a b : Sig => a.combineLinear b 0 (· + ·) (· + ·)) (op := (· + ·)) (fun ha hb => holds_add ha hb) h0
    (b := fun j : Fin m => (sg.at (j.1 + 1)).scale (s c j.succ)) (y := fun j k => x k j.succ * s c j.succ) (fun j => holds_scale _ (hx.2 j.succ))
  refine (congrArg (Holds θ A _) (funext fun k => ?_)).mp this
  have e : (Pan.mixer (m + 1) n).ticks.out s x k = fun i => Pan.mixRow (s i) (x k) := by
    show (fun i => Pan.mixRow ((Pan.mixer (m + 1) n).ticks.st s x k i) (x k)) = _
    rw [hst]
  rw [e]
  show _ = (List.finRange (m + 1)).foldl (fun value j => value + x k j * s c j) 0
  rw [List.finRange_succ, List.foldl_cons, List.foldl_map, zero_add]
  exact Fin.foldl_eq_finRange_foldl _ _

/-- **C104, declick.** The signal it fades in is reported unchanged. -/
theorem C104_declick (θ : ℝ) : Sound θ Rt.declick := by
  intro s hs A x sg hx
  refine ⟨hx.1, fun c => ?_⟩
  obtain rfl : c = 0 := Subsingleton.elim _ _
  have h0 : Holds θ A (sg.at 0) (fun k => x k 0) := hx.2 0
  change Dyn.DecSt at s
  change 0 < s.sampleDuration at hs
  obtain ⟨N, hN⟩ := exists_nat_gt ((s.duration - s.t) / s.sampleDuration)
  have e : ∀ k, N ≤ k → Dyn.declick.ticks.out s x k 0 = x k 0 := by
    intro k hk
    have : (N : ℝ) ≤ k := by exact_mod_cast hk
    rw [div_lt_iff₀ hs] at hN
    rw [Dyn.dec_out hs, if_neg (by nlinarith), mul_one]
  show Holds θ A (sg.at 0) _
  cases hsg : sg.at 0 <;> rw [hsg] at h0 <;> simp only [Holds] at *
  · exact h0.congr_tail N e
  · obtain ⟨d, h0⟩ := h0
    exact ⟨d, h0.congr_tail N e⟩

/-- **C104, monitors.** -/
theorem C104_monitor (θ : ℝ) (m : Dyn.Meter) : Sound θ (Rt.monitor m) := by
  intro s _ A x sg hx
  exact hx

/-- **C104, meters.** Nothing is claimed of the level but its latency. -/
theorem C104_meter (θ : ℝ) (m : Dyn.Meter) : Sound θ (Rt.meter m) := by
  intro s _ A x sg hx
  refine ⟨rfl, fun c => ?_⟩
  obtain rfl : c = 0 := Subsingleton.elim _ _
  exact holds_distort (sg.at 0) 0 _

/-! ## The limiter -/

/-- **C104, limiter, partial.** Of a signal with headroom, the limiter reports the magnitude of its response truly, and its latency: the sound is that of the response reported, delayed
by the lookahead. Missing: the response reported lacks the phase of that delay (`C104_violation_limiter`), and louder signals are turned down. -/
theorem C104_limiter_partial {n L : Nat} (hL : 1 ≤ L) {a r : ℝ} (ha : 0 ≤ a ∧ a ≤ 1) (hr : 0 ≤ r ∧ r ≤ 1) (θ : ℝ) (A : ℂ) (x y : Nat → Frame ℝ n) (sg : SFrame)
    (hx : HoldsL θ A sg x) (hq : ∀ k, Dyn.amp (x k) ≤ 10 / 11) (hy : ∀ k, Dyn.limOut (Dyn.limNew n L a r) x k = some (y k)) (c : Fin n) :
    (∀ v, sg.at c = .value v → (limRoute n L sg).at c = .value v ∧ Holds θ A (.value v) (fun k => y k c)) ∧
    (∀ H l, sg.at c = .response H l → (limRoute n L sg).at c = .response H (l + L) ∧ Holds θ A (.response (H * polar (-(θ * L))) (l + L)) (fun k => y k c)) := by
  have hyx : ∀ k, y (k + L) = x k := by
    intro k
    have := Dyn.C46_transparent hL ha hr x hq (k + L)
    rw [hy, if_neg (by omega), Nat.add_sub_cancel] at this
    exact Option.some.inj this
  have hat : (limRoute n L sg).at c = (sg.at c).delay L := chans_at _ c.2
  have h0 := hx.2 c
  constructor
  · intro v hv
    rw [hat, hv]
    refine ⟨rfl, ?_⟩
    rw [hv] at h0
    have := AsympExp.delay (polar_ne θ) h0 L (y := fun k => y k c) (fun k => congrFun (hyx k) c)
    rwa [zero_mul] at this
  · intro H l hv
    rw [hat, hv]
    refine ⟨rfl, ?_⟩
    rw [hv] at h0
    obtain ⟨d, h0⟩ := h0
    refine ⟨d, AsympExp.congr' (AsympExp.delay (polar_ne θ) h0 L (y := fun k => y k c) (fun k => congrFun (hyx k) c)) ?_ rfl (fun _ => rfl)⟩
    rw [polar_nat, polar_neg, mul_assoc]

/-! ## False answers -/

theorem polar_pi : polar Real.pi = -1 := Complex.exp_pi_mul_I

/-- Two descriptions of an alternating signal agree. -/
theorem alternating_unique {B D : ℂ} {d e : ℝ} {y : Nat → ℝ} (h : AsympExp (polar Real.pi) B d y) (h' : AsympExp (polar Real.pi) D e y) : B.re = D.re := by
  rw [polar_pi] at h h'
  have hd : Tendsto (fun k : ℕ => (e - d) + ((D - B) * (-1) ^ k).re) atTop (𝓝 0) := by
    have := Tendsto.sub h h'
    rw [sub_zero] at this
    refine this.congr (fun k => ?_)
    rw [sub_mul, Complex.sub_re]; ring
  have h1 := Tendsto.sub (hd.comp (tendsto_add_atTop_nat 1)) hd
  rw [sub_zero] at h1
  have h2 := h1.comp (tendsto_id.const_mul_atTop' (show (0 : ℕ) < 2 by norm_num))
  have e2 : ∀ k : ℕ, (((fun k : ℕ => (e - d) + ((D - B) * (-1) ^ k).re) ∘ fun a => a + 1) - fun k : ℕ => (e - d) + ((D - B) * (-1) ^ k).re) (2 * k) = -2 * (D.re - B.re) := by
    intro k
    simp only [Pi.sub_apply, Function.comp]
    rw [pow_succ, pow_mul]
    simp
    ring
  have h3 : Tendsto (fun _ : ℕ => -2 * (D.re - B.re)) atTop (𝓝 0) := by
    refine h2.congr (fun k => ?_)
    exact e2 k
  have := tendsto_nhds_unique h3 tendsto_const_nhds
  linarith

/-- **C104, violation.** The limiter reports its delay as latency but leaves it out of the phase: of a quiet alternating signal, with a lookahead of one sample, it
reports the opposite sign. -/
theorem C104_violation_limiter : ∃ (x y : Nat → Frame ℝ 1) (sg : SFrame) (A : ℂ), HoldsL Real.pi A sg x ∧ (∀ k, Dyn.amp (x k) ≤ 10 / 11) ∧
    (∀ k, Dyn.limOut (Dyn.limNew 1 1 1 1) x k = some (y k)) ∧ ¬ HoldsL Real.pi A (limRoute 1 1 sg) y := by
  let x : Nat → Frame ℝ 1 := fun k _ => (((1 / 2 : ℂ)) * (-1) ^ k).re
  have hx : HoldsL Real.pi (1 / 2) [.response 1 0] x := by
    refine ⟨rfl, fun c => ?_⟩
    obtain rfl : c = 0 := Subsingleton.elim _ _
    refine ⟨0, ?_⟩
    rw [polar_pi, mul_one]
    exact AsympExp.exact _ _
  have hq : ∀ k, Dyn.amp (x k) ≤ 10 / 11 := by
    intro k
    have e : Dyn.amp (x k) = max 0 |x k 0| := rfl
    have e2 : x k 0 = 1 / 2 ∨ x k 0 = -(1 / 2) := by
      rcases Nat.even_or_odd k with h | h
      · left; show (((1 / 2 : ℂ)) * (-1) ^ k).re = _; rw [h.neg_one_pow]; norm_num
      · right; show (((1 / 2 : ℂ)) * (-1) ^ k).re = _; rw [h.neg_one_pow]; norm_num
    rw [e]
    rcases e2 with e2 | e2 <;> rw [e2] <;> norm_num
  have h1 : (0 : ℝ) ≤ 1 ∧ (1 : ℝ) ≤ 1 := ⟨zero_le_one, le_refl _⟩
  have hy := Dyn.C46_transparent (n := 1) (le_refl 1) h1 h1 x hq
  refine ⟨x, _, _, _, hx, hq, hy, fun h => ?_⟩
  obtain ⟨d, a⟩ := h.2 0
  obtain ⟨e, b⟩ := ((C104_limiter_partial (le_refl 1) h1 h1 Real.pi (1 / 2) x _ _ hx hq hy 0).2 1 0 rfl).2
  have := alternating_unique a b
  rw [Nat.cast_one, mul_one Real.pi, polar_neg, polar_pi] at this
  norm_num at this

/-- **C104, violation.** Before its first sample, a filter with a cutoff input answers with the cutoff it was made with. If another one is at its input the answer is false. -/
theorem C104_violation_fresh {f0 p : ℝ} (h0 : 0 < f0) (hp : 0 < p) (hne : f0 ≠ p) :
    ¬ TrueFrom (lowpoleR 1) (lowpoleNew f0) 22050 44100 (fun x => ∀ k, x k 1 = p) := by
  intro hT
  have hθ : 2 * Real.pi * 22050 / 44100 = Real.pi := by ring
  let x : Nat → Frame ℝ 2 := fun k => ![((1 : ℂ) * (-1) ^ k).re, p]
  have hx : HoldsL Real.pi 1 [.response 1 0, .value p] x := by
    refine ⟨rfl, fun c => ?_⟩
    fin_cases c
    · refine ⟨0, ?_⟩
      rw [polar_pi, mul_one]
      exact AsympExp.exact _ _
    · exact AsympExp.const _ p
  have hok : ∀ k, x k 1 = p := fun k => rfl
  have a := (hT 1 x [.response 1 0, .value p] hok (hθ.symm ▸ hx)).2 0
  have hT' : TrueFrom (lowpoleR 1) ((lowpoleR 1).tick (lowpoleNew f0) ![x 0 0, p]).1 22050 44100 (fun x => ∀ k, x k 1 = p) :=
    C104_lowpole_input_partial f0 (fun _ => []) x 0 22050 (x 0 0) p hp (by show (0 : ℝ) < 44100; norm_num)
  have b := hT' (1 * polar (2 * Real.pi * 22050 / 44100)) (fun k => x (k + 1)) [.response 1 0, .value p] (fun k => hok (k + 1))
    ⟨rfl, fun c => Holds.next ((hθ.symm ▸ hx).2 c)⟩
  have b' := Holds.of_next (x := fun k => (lowpoleR 1).toComp.out (lowpoleNew f0) (fun _ => []) x k 0)
    ((congrArg (Holds _ _ _) (funext fun k => (congrFun (out_next (lowpoleR 1).toComp (lowpoleNew f0) x k) 0).symm)).mp (b.2 0))
  rw [hθ] at a b'
  have hph : phaseStep 22050 44100 = Real.pi := by unfold phaseStep; ring
  have ra : (lowpoleR 1).route (lowpoleNew f0) 22050 [.response 1 0, .value p] = [.response (1 * lowpoleResponse (poleCoeff 44100 f0) Real.pi) (0 + 0)] := by
    show filterBy (lowpoleResponse (poleCoeff 44100 f0) (phaseStep 22050 44100)) [.response 1 0, .value p] = _
    rw [hph]; rfl
  have hc : (lowpoleTick (poleCoeff 44100) 1 (lowpoleNew f0).base ![x 0 0, p]).1.coeff = poleCoeff 44100 p := by
    unfold lowpoleTick
    by_cases h : p = (lowpoleNew f0).base.cutoff
    · exact absurd h.symm hne
    · simp [h]
  have rb : (lowpoleR 1).route ((lowpoleR 1).tick (lowpoleNew f0) ![x 0 0, p]).1 22050 [.response 1 0, .value p]
      = [.response (1 * lowpoleResponse (poleCoeff 44100 p) Real.pi) (0 + 0)] := by
    show filterBy (lowpoleResponse (lowpoleTick (poleCoeff 44100) 1 (lowpoleNew f0).base ![x 0 0, p]).1.coeff (phaseStep 22050 44100)) [.response 1 0, .value p] = _
    rw [hph, hc]; rfl
  rw [ra] at a
  rw [rb] at b'
  obtain ⟨d, a⟩ := a
  obtain ⟨e, b'⟩ := b'
  have := alternating_unique a b'
  have hre : ∀ c : ℝ, (1 * (1 * lowpoleResponse c Real.pi)).re = (1 - c) / (1 + c) := by
    intro c
    have : lowpoleResponse c Real.pi = (((1 - c) / (1 + c) : ℝ) : ℂ) := by
      unfold lowpoleResponse
      rw [polar_neg, polar_pi]
      push_cast
      norm_num
    rw [this, one_mul, one_mul, Complex.ofReal_re]
  rw [hre, hre] at this
  have q1 : 0 < poleCoeff 44100 f0 := Real.exp_pos _
  have q2 : 0 < poleCoeff 44100 p := Real.exp_pos _
  rw [div_eq_div_iff (by positivity) (by positivity)] at this
  have h3 : poleCoeff 44100 f0 = poleCoeff 44100 p := by linarith
  have h4 := Real.exp_injective h3
  have := Real.pi_pos
  apply hne
  field_simp at h4
  linarith

/-- **C104, violation.** The same of the panner: it answers with the pan it was made with. -/
theorem C104_violation_panner (f sr : ℝ) : ¬ TrueFrom panR2 (Pan.PanSt.ofPan 0) f sr (fun x => ∀ k, x k 1 = -1) := by
  intro hT
  have a := (hT 0 (fun _ => ![1, -1]) [.value 1, .value (-1)] (fun _ => rfl) ⟨rfl, fun c => by
    fin_cases c
    · exact AsympExp.const _ 1
    · exact AsympExp.const _ (-1)⟩).2 1
  have a' : AsympExp (polar (2 * Real.pi * f / sr)) 0 (1 * (Pan.PanSt.ofPan 0).right) (fun _ => (Pan.PanSt.ofPan (-1)).right * 1) := a
  have hr : (Pan.PanSt.ofPan (-1)).right = 0 := by
    show Real.sin ((Math.clamp11 (-1) + 1) * (Real.pi * 0.25)) = 0
    simp [Math.clamp11]
  have h0 : (0 : ℝ) < (Pan.PanSt.ofPan 0).right := by
    show 0 < Real.sin ((Math.clamp11 0 + 1) * (Real.pi * 0.25))
    have : Math.clamp11 0 = 0 := by simp [Math.clamp11]
    rw [this]
    have := Real.pi_pos
    exact Real.sin_pos_of_pos_of_lt_pi (by linarith) (by linarith)
  unfold AsympExp at a'
  rw [hr] at a'
  have a2 := tendsto_nhds_unique (a'.congr (fun k => by simp : ∀ k : ℕ, _ = -(Pan.PanSt.ofPan 0).right)) tendsto_const_nhds
  linarith

/-! ## Examples -/

/-- A lowpass whose cutoff is set to 2000 Hz before the third sample and whose sample rate is changed before the fifth, asked before the tenth. -/
example (x : Nat → Frame ℝ 1) (f : ℝ) :
    TrueFrom (lowpoleR 0) ((lowpoleR 0).cur (lowpoleNew 1000) (fun k => if k = 3 then [.set (.center 2000)] else if k = 5 then [.rate 48000] else []) x 10) f 48000 (fun _ => True) := by
  have e : held updCenter (1000, 44100) (fun k => if k = 3 then [Ev.set (.center 2000)] else if k = 5 then [Ev.rate 48000] else []) 10 = (2000, 48000) := rfl
  have := C104_lowpole 1000 (fun k => if k = 3 then [.set (.center 2000)] else if k = 5 then [.rate 48000] else []) x 10 f (by rw [e]; norm_num) (by rw [e]; norm_num)
  rwa [e] at this

/-- A bell filter at 1 kHz that boosts by a factor of four, with `Q` set to 2. -/
example (x : Nat → Frame ℝ 1) (f : ℝ) :
    TrueFrom (fixedSvfR .bell) ((fixedSvfR .bell).cur (FixedSt.new .bell ⟨44100, 1000, 1, 4⟩) (fun k => if k = 1 then [.set (.centerQ 1000 2)] else []) x 2) f 44100 (fun _ => True) :=
  C104_svf .bell ⟨44100, 1000, 1, 4⟩ (fun k => if k = 1 then [.set (.centerQ 1000 2)] else []) x 2 f
    (by
      have : seen svfStep ⟨44100, 1000, 1, 4⟩ (fun k => if k = 1 then [Ev.set (.centerQ 1000 2)] else []) 2 = ⟨44100, 1000, 2, 4⟩ := rfl
      rw [this]; norm_num [SvfSane])

/-- A resonator whose inputs ask for 1 kHz and a bandwidth of 100 Hz. -/
example (x : Nat → Frame ℝ 3) (f u : ℝ) :
    TrueFrom (resonatorR 2) ((resonatorR 2).tick ((resonatorR 2).cur (resonatorNew 440 110) (fun _ => []) x 7) ![u, 1000, 100]).1 f 44100 (fun x => ∀ k, x k 1 = 1000 ∧ x k 2 = 100) :=
  C104_resonator_input_partial 440 110 (fun _ => []) x 7 f u 1000 100 (by norm_num) (by norm_num) (by show (2 : ℝ) * 1000 < 44100; norm_num)

/-- A lowpass filter of the state variable kind whose inputs ask for 1 kHz and `Q` one. -/
example (x : Nat → Frame ℝ 3) (f u : ℝ) :
    TrueFrom (svfR .lowpass) ((svfR .lowpass).tick ((svfR .lowpass).cur (SvfSt.new .lowpass ⟨44100, 440, 1, 1⟩) (fun _ => []) x 7) (![u, 1000, 1] : Frame ℝ 3)).1 f 44100
      (fun w => ∀ j (i : Fin 3), 0 < i.1 → w j i = (![u, 1000, 1] : Frame ℝ 3) i) :=
  C104_svf_input_partial .lowpass ⟨44100, 440, 1, 1⟩ (fun _ => []) x 7 f (![u, 1000, 1] : Frame ℝ 3)
    (by
      show SvfSane ⟨44100, 1000, 1, 1⟩
      norm_num [SvfSane])

/-- A pipeline of a fader and a mixer is analysed truly. -/
example (θ : ℝ) (M : Frame (Frame ℝ 1) 2) : Sound θ ((Rt.declick).pipe (Rt.mixer 0 2 M)) :=
  C68_sound_partial (.pipe (.leaf (C104_declick θ)) (.leaf (C104_mixer θ 0 2 M)))

end Fundsp.Route
