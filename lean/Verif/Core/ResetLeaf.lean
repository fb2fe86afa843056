import Verif.Core.ResetProps
import Verif.Delay.LinProps
import Verif.Delay.FeedbackProps
import Verif.Filter.Model
import Verif.Dyn.Props
import Verif.Shared.Props

/-! # C19: reset of delays, feedback, filters, followers, declicker and meters -/

namespace Fundsp
open Delay Filter Dyn
variable {α : Type}

/-! ## Delays -/

/-- **C19** for `tick`. -/
theorem C19_tick (zero : α) (n : Nat) : ResetFresh (tickNode zero n) (fun _ => zero) :=
  resetFresh_ofTick_eq (fun _ => True) trivial (fun _ _ _ => trivial) (fun _ _ => rfl)

/-- **C19** for `delay`, with the buffer set up for a delay of `d` samples. -/
theorem C19_delay (zero : α) (d : Nat) : ResetFresh (delayNode zero) (delaySetup zero d) :=
  resetFresh_ofTick_eq (fun s => s.buf.length = d + 1) (by simp [delaySetup]) (fun s x h => by simp [delayTick, h])
    (fun s h => by simp [Line.reset, delaySetup, h])

theorem pushMask_length (s : Line α) (x : α) : (pushMask s x).buf.length = s.buf.length := by simp [pushMask]

theorem push8_length (s : Line α) (x : Nat → α) : (push8 s x).buf.length = s.buf.length := by
  have : ∀ (l : List Nat) (s : Line α), (l.foldl (fun s j => pushMask s (x j)) s).buf.length = s.buf.length := by
    intro l
    induction l with
    | nil => intro s; rfl
    | cons a l ih => intro s; rw [List.foldl_cons, ih, pushMask_length]
  exact this _ _

theorem itemLoop_inv {i o} {σ : Type} {item : σ → (Nat → Frame α i) → σ × (Nat → Frame α o)} {P : σ → Prop}
    (h : ∀ s x, P s → P (item s x).1) (inp : Buf α i) : ∀ m j s (out : Buf α o), P s → P (itemLoop item inp j m s out).1 := by
  intro m
  induction m with
  | zero => intro j s out hs; exact hs
  | succ m ih => intro j s out hs; exact ih _ _ _ (h _ _ hs)

theorem simdProcess_inv {i o} {σ : Type} {item : σ → (Nat → Frame α i) → σ × (Nat → Frame α o)}
    {tick : σ → Frame α i → σ × Frame α o} {P : σ → Prop}
    (hi : ∀ s x, P s → P (item s x).1) (ht : ∀ s x, P s → P (tick s x).1) (g : Garb α) (s : σ) (size : Nat) (inp : Buf α i) (out : Buf α o)
    (hs : P s) : P (simdProcess item tick g s size inp out).1 :=
  tickLoop_inv ht _ _ _ _ _ (itemLoop_inv hi _ _ _ _ _ hs)

theorem tapTick_length (O : TapOps α) (n : Nat) (s : Line α) (x : Frame α (n + 1)) : (tapTick O n s x).1.buf.length = s.buf.length :=
  pushMask_length _ _

theorem tapItem_length (O : TapOps α) (n : Nat) (s : Line α) (x : Nat → Frame α (n + 1)) : (tapItem O n s x).1.buf.length = s.buf.length := by
  simp only [tapItem]; exact push8_length s (fun j => x j 0)

theorem linTick_length (O : TapOps α) (n : Nat) (s : Line α) (x : Frame α (n + 1)) : (linTick O n s x).1.buf.length = s.buf.length :=
  pushMask_length _ _

theorem linItem_length (O : TapOps α) (n : Nat) (s : Line α) (x : Nat → Frame α (n + 1)) : (linItem O n s x).1.buf.length = s.buf.length := by
  simp only [linItem]; exact push8_length s (fun j => x j 0)

theorem tap_fresh (O : TapOps α) (n L : Nat) : ResetFresh (tapNode O n) (⟨List.replicate L O.zero, 0⟩ : Line α) := by
  refine resetFresh_of_eq (n := tapNode O n) (fun s : Line α => s.buf.length = L) List.length_replicate ?_ ?_ ?_
  · intro s x h; exact (tapTick_length O n s x).trans h
  · intro g s size inp out h
    exact simdProcess_inv (P := fun s : Line α => s.buf.length = L) (fun s x h => (tapItem_length O n s x).trans h)
      (fun s x h => (tapTick_length O n s x).trans h) g s size inp out h
  · intro s h
    show (⟨List.replicate s.buf.length O.zero, 0⟩ : Line α) = _
    rw [h]

theorem lin_fresh (O : TapOps α) (n L : Nat) : ResetFresh (linNode O n) (⟨List.replicate L O.zero, 0⟩ : Line α) := by
  refine resetFresh_of_eq (n := linNode O n) (fun s : Line α => s.buf.length = L) List.length_replicate ?_ ?_ ?_
  · intro s x h; exact (linTick_length O n s x).trans h
  · intro g s size inp out h
    exact simdProcess_inv (P := fun s : Line α => s.buf.length = L) (fun s x h => (linItem_length O n s x).trans h)
      (fun s x h => (linTick_length O n s x).trans h) g s size inp out h
  · intro s h
    show (⟨List.replicate s.buf.length O.zero, 0⟩ : Line α) = _
    rw [h]

/-- **C19** for `tap` and `multitap` after the buffer is set up for a maximum delay of `c` samples (rounded up). -/
theorem C19_tap (O : TapOps α) (n c : Nat) : ResetFresh (tapNode O n) (tapSetup O.zero c) := tap_fresh O n _

/-- **C19** for `tap_linear` and `multitap_linear`. -/
theorem C19_tap_linear (O : TapOps α) (n c : Nat) : ResetFresh (linNode O n) (linSetup O.zero c) := lin_fresh O n _

/-! ## Feedback -/

/-- **C19** for `feedback`, around any component that resets properly. -/
theorem C19_feedback {n : Nat} (zero : α) (add : α → α → α) (op : Frame α n → Frame α n) (X : Node α n n) (a : X.σ)
    (hX : ResetFresh X a) : ResetFresh (feedbackNode zero add op X) (a, fun _ => zero) := by
  refine TickFresh.ofTick (tickFresh_of_rel (n := feedbackNode zero add op X) (fun s => Reached X a s.1)
    (fun s t => SameStream X s.1 t.1 ∧ s.2 = t.2) .init (fun s x h => h.tick _) (fun s h => h.reset)
    (fun s h => ⟨hX.tickFresh _ h, rfl⟩) ?_)
  rintro ⟨s, f⟩ ⟨t, f'⟩ x ⟨h, hf⟩
  obtain rfl : f = f' := hf
  have := h.tick (fun c => add (x c) (f c))
  exact ⟨⟨this.1, congrArg op this.2⟩, this.2⟩

/-- **C19** for `feedback2`. -/
theorem C19_feedback2 {n : Nat} (zero : α) (add : α → α → α) (op : Frame α n → Frame α n) (X Y : Node α n n) (a : X.σ) (b : Y.σ)
    (hX : ResetFresh X a) (hY : ResetFresh Y b) : ResetFresh (feedback2Node zero add op X Y) (a, b, fun _ => zero) := by
  refine TickFresh.ofTick (tickFresh_of_rel (n := feedback2Node zero add op X Y) (fun s => Reached X a s.1 ∧ Reached Y b s.2.1)
    (fun s t => SameStream X s.1 t.1 ∧ SameStream Y s.2.1 t.2.1 ∧ s.2.2 = t.2.2) ⟨.init, .init⟩
    (fun s x h => ⟨h.1.tick _, h.2.tick _⟩) (fun s h => ⟨h.1.reset, h.2.reset⟩)
    (fun s h => ⟨hX.tickFresh _ h.1, hY.tickFresh _ h.2, rfl⟩) ?_)
  rintro ⟨s, s2, f⟩ ⟨t, t2, f'⟩ x ⟨h, h2, hf⟩
  obtain rfl : f = f' := hf
  have h1 := h.tick (fun c => add (x c) (f c))
  have e : (X.tick s (fun c => add (x c) (f c))).2 = (X.tick t (fun c => add (x c) (f c))).2 := h1.2
  have h3 := h2.tick (X.tick s (fun c => add (x c) (f c))).2
  refine ⟨⟨h1.1, ?_, ?_⟩, h1.2⟩
  · show SameStream Y (Y.tick s2 (X.tick s (fun c => add (x c) (f c))).2).1 (Y.tick t2 (X.tick t (fun c => add (x c) (f c))).2).1
    rw [← e]; exact h3.1
  · show op (Y.tick s2 (X.tick s (fun c => add (x c) (f c))).2).2 = op (Y.tick t2 (X.tick t (fun c => add (x c) (f c))).2).2
    rw [← e]; exact congrArg op h3.2

/-- **C19** for `FeedbackUnit` (`feedback2`-style loop around a unit with a delay of `r` samples). -/
theorem C19_feedback_unit {n : Nat} (zero : α) (add : α → α → α) (X : Node α n n) (a : X.σ) (r : Nat)
    (hX : ResetFresh X a) (hb : BlockEqualsTick X) : ResetFresh (fbNode zero add X) (fbSetup zero a r) := by
  refine TickFresh.resetFresh (tickFresh_of_rel (n := fbNode zero add X)
    (fun s => Reached X a s.x ∧ s.samples = (fbSetup zero a r).samples ∧ s.line.buf.length = (fbSetup zero a r).line.buf.length)
    (fun s t => SameStream X s.x t.x ∧ s.line = t.line ∧ s.samples = t.samples) ⟨.init, rfl, rfl⟩ ?_ ?_ ?_ ?_) ?_
  · rintro s x ⟨h1, h2, h3⟩
    exact ⟨h1.tick _, h2, by simpa [fbNode, fbTick] using h3⟩
  · rintro s ⟨h1, h2, h3⟩
    exact ⟨h1.reset, h2, by simpa [fbNode, fbReset, Line.reset] using h3⟩
  · rintro s ⟨h1, h2, h3⟩
    refine ⟨hX.tickFresh _ h1, ?_, h2⟩
    show Line.reset (fun _ => zero) s.line = _
    simp only [Line.reset]; rw [h3]; simp [fbSetup]
  · rintro ⟨s, l, m⟩ ⟨t, l', m'⟩ x ⟨h, hl, hm⟩
    obtain rfl : l = l' := hl
    obtain rfl : m = m' := hm
    have h1 := h.tick (fun c => add (x c) (l.buf.getD (readIndex l m) (fun _ => zero) c))
    refine ⟨⟨h1.1, ?_, rfl⟩, h1.2⟩
    show (⟨l.buf.set l.i _, _⟩ : Line (Frame α n)) = ⟨l.buf.set l.i _, _⟩
    rw [h1.2]
  · exact fun w cs hc => C38_block zero add X hb w cs hc _ (C38_setup zero a r).1

/-! ## Filters -/

section
variable {K : Type} [Field K]

/-- **C19** for `lowpole`, with constant cutoff (`n = 0`) or cutoff input. The newly made filter has the coefficient of its cutoff. -/
theorem C19_lowpole [DecidableEq K] (cf : K → K) (n : Nat) (c : K) : ResetFresh (lowpoleNode cf n) ⟨0, cf c, c⟩ := by
  by_cases hn : 1 < n + 1
  · have key : ∀ (s : LowpoleSt K) (x : Frame K (n + 1)), s.coeff = cf s.cutoff →
        (lowpoleTick cf n s x).1 = ⟨(1 - cf (x ⟨1, hn⟩)) * x 0 + cf (x ⟨1, hn⟩) * s.value, cf (x ⟨1, hn⟩), x ⟨1, hn⟩⟩ ∧
        (lowpoleTick cf n s x).2 = fun _ => (1 - cf (x ⟨1, hn⟩)) * x 0 + cf (x ⟨1, hn⟩) * s.value := by
      intro s x hs
      obtain ⟨v, co, cu⟩ := s
      simp only at hs
      unfold lowpoleTick
      rw [dif_pos hn]
      by_cases hc : x ⟨1, hn⟩ = cu
      · subst hc; subst hs; simp
      · simp [hc]
    refine TickFresh.ofTick (tickFresh_of_rel (n := lowpoleNode cf n) (fun s => s.coeff = cf s.cutoff)
      (fun s t => s.coeff = cf s.cutoff ∧ t.coeff = cf t.cutoff ∧ s.value = t.value) rfl ?_ (fun s h => h) (fun s h => ⟨h, rfl, rfl⟩) ?_)
    · intro s x h
      exact (congrArg LowpoleSt.coeff (key s x h).1).trans (congrArg (fun t => cf (LowpoleSt.cutoff t)) (key s x h).1).symm
    · rintro s t x ⟨h1, h2, h3⟩
      obtain ⟨a1, a2⟩ := key s x h1
      obtain ⟨b1, b2⟩ := key t x h2
      refine ⟨⟨?_, ?_, ?_⟩, ?_⟩
      · exact (congrArg LowpoleSt.coeff a1).trans (congrArg (fun t => cf (LowpoleSt.cutoff t)) a1).symm
      · exact (congrArg LowpoleSt.coeff b1).trans (congrArg (fun t => cf (LowpoleSt.cutoff t)) b1).symm
      · refine (congrArg LowpoleSt.value a1).trans (Eq.trans ?_ (congrArg LowpoleSt.value b1).symm)
        show _ = (1 - cf (x ⟨1, hn⟩)) * x 0 + cf (x ⟨1, hn⟩) * t.value
        rw [← h3]
      · refine a2.trans (Eq.trans ?_ b2.symm)
        rw [h3]
  · refine resetFresh_ofTick_eq (fun s => s.coeff = cf c ∧ s.cutoff = c) ⟨rfl, rfl⟩ ?_ ?_
    · intro s x h
      simp only [lowpoleTick, dif_neg hn]; exact h
    · rintro ⟨v, co, cu⟩ ⟨h1, h2⟩
      simp only at h1 h2; rw [h1, h2]

/-- **C19** for `dcblock`. -/
theorem C19_dcblock (c : K) : ResetFresh (dcblockNode : Node K 1 1) ⟨0, 0, c⟩ :=
  resetFresh_ofTick_eq (fun s => s.coeff = c) rfl (fun s x h => h) (fun s h => by simp [PoleZero.reset, h])

/-- **C19** for `highpole`. -/
theorem C19_highpole (c : K) : ResetFresh (highpoleNode : Node K 1 1) ⟨0, 0, c⟩ :=
  resetFresh_ofTick_eq (fun s => s.coeff = c) rfl (fun s x h => h) (fun s h => by simp [PoleZero.reset, h])

/-- **C19** for `allpole`, with constant delay (`n = 0`) or delay input. -/
theorem C19_allpole (n : Nat) (c : K) : ResetFresh (allpoleNode n : Node K (n + 1) 1) ⟨0, 0, c⟩ := by
  by_cases hn : 1 < n + 1
  · refine TickFresh.ofTick (tickFresh_of_rel (n := allpoleNode n) (fun _ => True) (fun s t => s.x1 = t.x1 ∧ s.y1 = t.y1)
      trivial (fun _ _ _ => trivial) (fun _ _ => trivial) (fun _ _ => ⟨rfl, rfl⟩) ?_)
    rintro ⟨s1, s2, s3⟩ ⟨t1, t2, t3⟩ x ⟨h1, h2⟩
    simp only at h1 h2
    subst h1; subst h2
    show ((allpoleTick n _ x).1.x1 = (allpoleTick n _ x).1.x1 ∧ (allpoleTick n _ x).1.y1 = (allpoleTick n _ x).1.y1) ∧ (allpoleTick n _ x).2 = (allpoleTick n _ x).2
    simp only [allpoleTick, dif_pos hn]
    exact ⟨⟨trivial, trivial⟩, trivial⟩
  · refine resetFresh_ofTick_eq (fun s => s.coeff = c) rfl ?_ (fun s h => by simp [PoleZero.reset, h])
    intro s x h
    simp only [allpoleTick, dif_neg hn]; exact h

/-- **C19** for `pinkpass`. -/
theorem C19_pinkpass : ResetFresh (pinkNode : Node K 1 1) ⟨0, 0, 0, 0, 0, 0, 0⟩ :=
  resetFresh_ofTick_eq (fun _ => True) trivial (fun _ _ _ => trivial) (fun _ _ => rfl)

/-- **C19** for `follow`. -/
theorem C19_follow (c : K) : ResetFresh (followNode : Node K 1 1) ⟨0, 0, 0, c, 1⟩ :=
  resetFresh_ofTick_eq (fun s => s.coeff = c) rfl (fun s x h => h) (fun s h => by simp [followReset, h])

/-- **C19** for `afollow`. -/
theorem C19_afollow [LinearOrder K] (a r : K) : ResetFresh (afollowNode : Node K 1 1) ⟨0, 0, 0, a, r, 1, 1⟩ :=
  resetFresh_ofTick_eq (fun s => s.acoeff = a ∧ s.rcoeff = r) ⟨rfl, rfl⟩ (fun s x h => h) (fun s h => by simp [afollowReset, h.1, h.2])

/-- **C19** for `biquad`. -/
theorem C19_biquad (c : BiquadCoefs K) : ResetFresh (biquadNode c) ⟨0, 0, 0, 0⟩ :=
  resetFresh_ofTick_eq (fun _ => True) trivial (fun _ _ _ => trivial) (fun _ _ => rfl)

/-- **C19** for the state variable filters with constant parameters. -/
theorem C19_svf (c : SvfCoefs K) : ResetFresh (svfNode c) (0, 0) :=
  resetFresh_ofTick_eq (fun _ => True) trivial (fun _ _ _ => trivial) (fun _ _ => rfl)

/-- **C19** for `allnest`, around any component that resets properly. -/
theorem C19_allnest (X : Node K 1 1) (n : Nat) (a : X.σ) (eta : K) (hX : ResetFresh X a) : ResetFresh (allnestNode X n) ⟨a, eta, 0⟩ := by
  by_cases hn : 1 < n + 1
  · refine TickFresh.ofTick (tickFresh_of_rel (n := allnestNode X n) (fun s => Reached X a s.x)
      (fun s t => SameStream X s.x t.x ∧ s.z = t.z) .init (fun s x h => h.tick _) (fun s h => h.reset)
      (fun s h => ⟨hX.tickFresh _ h, rfl⟩) ?_)
    rintro ⟨s, e, z⟩ ⟨t, e', z'⟩ x ⟨h, hz⟩
    obtain rfl : z = z' := hz
    have := h.tick (fun _ => x 0 - x ⟨1, hn⟩ * z)
    show (SameStream X (allnestTick X n _ x).1.x (allnestTick X n _ x).1.x ∧ (allnestTick X n _ x).1.z = (allnestTick X n _ x).1.z) ∧
      (allnestTick X n _ x).2 = (allnestTick X n _ x).2
    simp only [allnestTick, dif_pos hn]
    exact ⟨⟨this.1, congrFun this.2 0⟩, trivial⟩
  · refine TickFresh.ofTick (tickFresh_of_rel (n := allnestNode X n) (fun s => Reached X a s.x ∧ s.eta = eta)
      (fun s t => SameStream X s.x t.x ∧ s.z = t.z ∧ s.eta = t.eta) ⟨.init, rfl⟩ ?_ (fun s h => ⟨h.1.reset, h.2⟩)
      (fun s h => ⟨hX.tickFresh _ h.1, rfl, h.2⟩) ?_)
    · rintro s x ⟨h1, h2⟩
      refine ⟨h1.tick _, ?_⟩
      show (allnestTick X n s x).1.eta = eta
      simp only [allnestTick, dif_neg hn]; exact h2
    · rintro ⟨s, e, z⟩ ⟨t, e', z'⟩ x ⟨h, hz, he⟩
      obtain rfl : z = z' := hz
      obtain rfl : e = e' := he
      have := h.tick (fun _ => x 0 - e * z)
      show (SameStream X (allnestTick X n _ x).1.x (allnestTick X n _ x).1.x ∧ (allnestTick X n _ x).1.z = (allnestTick X n _ x).1.z ∧
        (allnestTick X n _ x).1.eta = (allnestTick X n _ x).1.eta) ∧ (allnestTick X n _ x).2 = (allnestTick X n _ x).2
      simp only [allnestTick, dif_neg hn]
      exact ⟨⟨this.1, congrFun this.2 0, trivial⟩, trivial⟩

end

/-- **C19** for `fir`. -/
theorem C19_fir (zero : α) (add mul : α → α → α) {N : Nat} (w : Frame α N) : ResetFresh (firNode zero add mul w) (fun _ => zero) :=
  resetFresh_ofTick_eq (fun _ => True) trivial (fun _ _ _ => trivial) (fun _ _ => rfl)

/-! ## Dynamics -/

/-- **C19** for `declick`. -/
theorem C19_declick (duration sd : ℝ) : ResetFresh declick ⟨0, duration, sd⟩ := by
  refine resetFresh_of_eq (n := declick) (fun s => s.duration = duration ∧ s.sampleDuration = sd) ⟨rfl, rfl⟩ ?_ ?_ ?_
  · intro s x h
    show (decTick s x).1.duration = _ ∧ (decTick s x).1.sampleDuration = _
    simp only [decTick]; split <;> exact h
  · intro g s size inp out h
    show (decProcess g s size inp out).1.duration = _ ∧ (decProcess g s size inp out).1.sampleDuration = _
    simp only [decProcess]; split <;> exact h
  · rintro ⟨t, d, q⟩ ⟨h1, h2⟩
    simp only at h1 h2
    show (⟨0, d, q⟩ : DecSt) = _
    rw [h1, h2]

/-- **C19** for `meter`. -/
theorem C19_meter (m : Meter) (sm : ℝ) : ResetFresh (meterNode m) ⟨sm, 0⟩ := by
  refine resetFresh_ofTick_eq (fun s => s.smoothing = sm) rfl ?_ (fun s h => by simp [h])
  intro s x h
  show (meterTick m s (x 0)).smoothing = sm
  cases m <;> exact h

/-- **C19** for `monitor`: the audible part. The shared variable itself keeps its last value until the next tick, so it is not compared. -/
theorem C19_monitor (m : Meter) (sm v : ℝ) : TickFresh (monitor m) (⟨sm, 0⟩, v) := by
  refine tickFresh_of_rel (n := monitor m) (fun s => s.1.smoothing = sm) (fun s t => s.1 = t.1) rfl ?_ (fun s h => h) ?_ ?_
  · intro s x h
    show (meterTick m s.1 (x 0)).smoothing = sm
    cases m <;> exact h
  · rintro ⟨⟨a, b⟩, c⟩ h
    show (⟨a, 0⟩ : MeterSt) = ⟨sm, 0⟩
    exact congrArg (fun z => (⟨z, 0⟩ : MeterSt)) h
  · rintro ⟨s, a⟩ ⟨t, b⟩ x h
    obtain rfl : s = t := h
    exact ⟨rfl, rfl⟩

/-- `Hold` as a node: `noise.rs:276-304`. -/
noncomputable def holdNode {R : Type} (next : R → R × ℝ) (dur v : ℝ) (seed : R) : Node ℝ 2 1 :=
  .ofTick (Shared.Hold R) (Shared.holdReset seed) (fun s x => ((Shared.holdTick next dur v s (x 0) (x 1)).1, fun _ => (Shared.holdTick next dur v s (x 0) (x 1)).2))

/-- **C19** for `hold`: the held value is not cleared by `reset`, but the first tick after a reset samples the input, so it cannot be heard. -/
theorem C19_hold {R : Type} (next : R → R × ℝ) (dur v : ℝ) (seed : R) : ResetFresh (holdNode next dur v seed) ⟨seed, 0, 0, 0⟩ := by
  refine TickFresh.ofTick (tickFresh_of_rel (n := holdNode next dur v seed) (fun _ => True)
    (fun s t => s = t ∨ (s.rnd = t.rnd ∧ s.t = t.t ∧ s.nextT = t.nextT ∧ s.nextT ≤ s.t)) trivial (fun _ _ _ => trivial) (fun _ _ => trivial)
    (fun s _ => .inr ⟨rfl, rfl, rfl, le_refl _⟩) ?_)
  rintro s t x (rfl | ⟨h1, h2, h3, h4⟩)
  · exact ⟨.inl rfl, rfl⟩
  · obtain ⟨a, b, c, d⟩ := s
    obtain ⟨a', b', c', d'⟩ := t
    simp only at h1 h2 h3 h4
    subst h1; subst h2; subst h3
    have e : Shared.holdTick next dur v ⟨a, b, c, d⟩ (x 0) (x 1) = Shared.holdTick next dur v ⟨a, b, c, d'⟩ (x 0) (x 1) := by
      simp [Shared.holdTick, h4]
    refine ⟨.inl ?_, funext fun _ => ?_⟩
    · show (Shared.holdTick next dur v ⟨a, b, c, d⟩ (x 0) (x 1)).1 = (Shared.holdTick next dur v ⟨a, b, c, d'⟩ (x 0) (x 1)).1
      rw [e]
    · show (Shared.holdTick next dur v ⟨a, b, c, d⟩ (x 0) (x 1)).2 = (Shared.holdTick next dur v ⟨a, b, c, d'⟩ (x 0) (x 1)).2
      rw [e]

/-- **C19 fails for `limiter`**: one that has run for two samples and is then reset does not sound like a new one, because the gain follower keeps
its state. -/
theorem C19_violation_limiter : ∃ s, limRun (limNew 1 1 (1 / 2) (1 / 2)) (fun _ _ => 1 / 10) 2 = some s ∧
    limOut (limReset s) (fun _ _ => 1 / 10) 1 ≠ limOut (limNew 1 1 (1 / 2) (1 / 2)) (fun _ _ => 1 / 10) 1 := by
  obtain ⟨s, h1, h2⟩ := C46_reset_violation
  refine ⟨s, h1, ?_⟩
  rw [h2, C46_transparent (le_refl 1) (by norm_num) (by norm_num) _ (fun k => ?_)]
  · intro h
    have := congrFun (Option.some.inj h) 0
    norm_num at this
  · refine (Dyn.foldl_le _ (fun c => ?_) 0 (by norm_num : (0:ℝ) ≤ 10 / 11))
    rw [abs_of_nonneg (by norm_num)]; norm_num

/-- **C19** for the chain of a monitored, delayed and filtered signal: an instance of the general theorem with real leaves. -/
example : ResetFresh (Graph.pipe (.leaf (delayNode (0 : ℚ)))
    (.bus (· + ·) (.leaf (allpoleNode 0 : Node ℚ 1 1)) (.leaf (feedbackNode 0 (· + ·) id (delayNode (0 : ℚ))))) : Graph ℚ 1 1).node
    (delaySetup 0 5, (⟨0, 0, 1 / 2⟩, (delaySetup 0 3, fun _ => 0))) :=
  C19_graph (Graph.pipe (.leaf (delayNode (0 : ℚ)))
    (.bus (· + ·) (.leaf (allpoleNode 0 : Node ℚ 1 1)) (.leaf (feedbackNode 0 (· + ·) id (delayNode (0 : ℚ))))) : Graph ℚ 1 1) ⟨(tickBlock_iff _).1 (tickBlock_ofTick _ _), (tickBlock_iff _).1 (tickBlock_ofTick _ _), (tickBlock_iff _).1 (tickBlock_ofTick _ _)⟩ _
    ⟨C19_delay 0 5, C19_allpole 0 (1 / 2), C19_feedback 0 (· + ·) id _ _ (C19_delay 0 3)⟩

end Fundsp
