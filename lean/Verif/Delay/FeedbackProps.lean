import Verif.Delay.Props

/-! C38: feedback units. -/

namespace Fundsp.Delay

variable {α : Type} {n : Nat}

/-- Specification of a feedback loop of `d ≥ 1` samples around a unit with output function `X` (which maps an input stream to an output
stream): `y` is a solution of `y[k] = X(in + delayed y)[k]`. -/
def LoopSolution (zero : α) (add : α → α → α) (d : Nat) (X : (Nat → Frame α n) → Nat → Frame α n) (w y : Nat → Frame α n) : Prop :=
  ∀ k, y k = X (fun j c => add (w j c) (delayed (fun _ => zero) d y j c)) k

/-- Solutions are unique when `X` is causal, so the specification determines the output. -/
theorem LoopSolution.unique {zero : α} {add : α → α → α} {d : Nat} (hd : 1 ≤ d) (X : Mealy α n n) (s : X.S) {w y z : Nat → Frame α n}
    (hy : LoopSolution zero add d (fun v k => X.out s v k) w y) (hz : LoopSolution zero add d (fun v k => X.out s v k) w z) : y = z := by
  funext k
  induction k using Nat.strongRecOn with
  | _ k ih =>
    rw [hy k, hz k]
    refine X.out_congr s _ _ k (fun j hj => ?_)
    funext c
    congr 1
    unfold delayed
    by_cases h : d ≤ j
    · rw [if_pos h, if_pos h, ih (j - d) (by omega)]
    · rw [if_neg h, if_neg h]

/-! ### Single sample feedback -/

/-- **C38.** `Feedback`: the output is the solution of the loop equation with a one-sample delay; the operator acts on the fed back frame. -/
theorem C38_feedback (zero : α) (add : α → α → α) (op : Frame α n → Frame α n) (X : Node α n n) (s : X.σ × Frame α n) (w : Nat → Frame α n) (k : Nat) :
    (feedbackNode zero add op X).ticks.out ((feedbackNode zero add op X).reset s) w k
      = X.ticks.out (X.reset s.1) (fun j c => add (w j c)
          (delayed (fun _ => zero) 1 (fun i => op ((feedbackNode zero add op X).ticks.out ((feedbackNode zero add op X).reset s) w i)) j c)) k := by
  generalize hy : (fun i => op ((feedbackNode zero add op X).ticks.out ((feedbackNode zero add op X).reset s) w i)) = y
  have hst : ∀ j, (feedbackNode zero add op X).ticks.st ((feedbackNode zero add op X).reset s) w j
      = (X.ticks.st (X.reset s.1) (fun j c => add (w j c) (delayed (fun _ => zero) 1 y j c)) j, delayed (fun _ => zero) 1 y j) := by
    intro j
    induction j with
    | zero => rfl
    | succ j ih =>
      have hyj : y j = op ((feedbackNode zero add op X).ticks.out ((feedbackNode zero add op X).reset s) w j) := by rw [← hy]
      have e : (feedbackNode zero add op X).ticks.st ((feedbackNode zero add op X).reset s) w (j + 1)
        = ((X.tick ((feedbackNode zero add op X).ticks.st ((feedbackNode zero add op X).reset s) w j).1
            (fun c => add (w j c) (((feedbackNode zero add op X).ticks.st ((feedbackNode zero add op X).reset s) w j).2 c))).1,
           op ((feedbackNode zero add op X).ticks.out ((feedbackNode zero add op X).reset s) w j)) := rfl
      rw [e, ← hyj, ih]
      rfl
  show (X.tick ((feedbackNode zero add op X).ticks.st ((feedbackNode zero add op X).reset s) w k).1
            (fun c => add (w k c) (((feedbackNode zero add op X).ticks.st ((feedbackNode zero add op X).reset s) w k).2 c))).2 = _
  rw [hst k]
  rfl

/-- **C38.** `Feedback2`: the same, with the extra unit `Y` and the operator in the feedback path only. -/
theorem C38_feedback2 (zero : α) (add : α → α → α) (op : Frame α n → Frame α n) (X Y : Node α n n) (s : X.σ × Y.σ × Frame α n)
    (w : Nat → Frame α n) (k : Nat) :
    let y := (feedback2Node zero add op X Y).ticks.out ((feedback2Node zero add op X Y).reset s) w
    y k = X.ticks.out (X.reset s.1) (fun j c => add (w j c)
          (delayed (fun _ => zero) 1 (fun i => op (Y.ticks.out (Y.reset s.2.1) y i)) j c)) k := by
  intro y
  generalize hz : (fun i => op (Y.ticks.out (Y.reset s.2.1) y i)) = z
  have hst : ∀ j, (feedback2Node zero add op X Y).ticks.st ((feedback2Node zero add op X Y).reset s) w j
      = (X.ticks.st (X.reset s.1) (fun j c => add (w j c) (delayed (fun _ => zero) 1 z j c)) j, Y.ticks.st (Y.reset s.2.1) y j,
          delayed (fun _ => zero) 1 z j) := by
    intro j
    induction j with
    | zero => rfl
    | succ j ih =>
      have hzj : z j = op (Y.ticks.out (Y.reset s.2.1) y j) := by rw [← hz]
      have e : (feedback2Node zero add op X Y).ticks.st ((feedback2Node zero add op X Y).reset s) w (j + 1)
        = ((X.tick ((feedback2Node zero add op X Y).ticks.st ((feedback2Node zero add op X Y).reset s) w j).1
            (fun c => add (w j c) (((feedback2Node zero add op X Y).ticks.st ((feedback2Node zero add op X Y).reset s) w j).2.2 c))).1,
           (Y.tick ((feedback2Node zero add op X Y).ticks.st ((feedback2Node zero add op X Y).reset s) w j).2.1 (y j)).1,
           op (Y.tick ((feedback2Node zero add op X Y).ticks.st ((feedback2Node zero add op X Y).reset s) w j).2.1 (y j)).2) := rfl
      rw [e, ih]
      refine Prod.ext rfl (Prod.ext rfl ?_)
      show op (Y.ticks.out (Y.reset s.2.1) y j) = z j
      exact hzj.symm
  show (X.tick ((feedback2Node zero add op X Y).ticks.st ((feedback2Node zero add op X Y).reset s) w k).1
            (fun c => add (w k c) (((feedback2Node zero add op X Y).ticks.st ((feedback2Node zero add op X Y).reset s) w k).2.2 c))).2 = _
  rw [hst k]
  rfl

/-! ### FeedbackUnit -/

/-- Valid states: the buffer is a power of two that can hold the delay. -/
structure FbValid {X : Node α n n} (s : FbState X) : Prop where
  valid : s.line.Valid
  pow2 : ∃ p, s.line.buf.length = 2 ^ p
  pos : 1 ≤ s.samples
  room : s.samples ≤ s.line.buf.length

theorem readIndex_eq {s : Line (Frame α n)} {p d : Nat} (hL : s.buf.length = 2 ^ p) (hd : d ≤ 2 ^ p) :
    readIndex s d = (s.i + 2 ^ p - d) % 2 ^ p := by
  have hpos : 0 < 2 ^ p := Nat.two_pow_pos p
  unfold readIndex
  rw [hL, Nat.and_two_pow_sub_one_eq_mod, show s.i + (2 ^ p - 1) + 1 - d = s.i + 2 ^ p - d by omega]

theorem fbTick_eq (zero : α) (add : α → α → α) (X : Node α n n) {s : FbState X} (hs : FbValid s) (x : Frame α n) :
    fbTick zero add X s x =
      let r := X.tick s.x (fun c => add (x c) (s.line.ago (fun _ => zero) s.samples c))
      ({ s with x := r.1, line := s.line.push r.2 }, r.2) := by
  obtain ⟨p, hL⟩ := hs.pow2
  have hr := hs.room
  unfold fbTick
  simp only [readIndex_eq hL (hL ▸ hr)]
  rw [hL, Nat.and_two_pow_sub_one_eq_mod]
  unfold Line.ago Line.push
  rw [hL]

theorem fbValid_tick (zero : α) (add : α → α → α) (X : Node α n n) {s : FbState X} (hs : FbValid s) (x : Frame α n) :
    FbValid (fbTick zero add X s x).1 := by
  rw [fbTick_eq zero add X hs]
  refine ⟨hs.valid.push _, ?_, hs.pos, ?_⟩
  · show ∃ p, (s.line.push _).buf.length = 2 ^ p
    rw [Line.push_length]; exact hs.pow2
  · show s.samples ≤ (s.line.push _).buf.length
    rw [Line.push_length]; exact hs.room

theorem fbValid_reset (zero : α) {X : Node α n n} {s : FbState X} (hs : FbValid s) : FbValid (fbReset zero s) := by
  refine ⟨hs.valid.reset _, ?_, hs.pos, ?_⟩
  · simpa [fbReset, Line.reset] using hs.pow2
  · simpa [fbReset, Line.reset] using hs.room

/-- State of a run in terms of the outputs `y` so far. -/
theorem fb_st (zero : α) (add : α → α → α) (X : Node α n n) {s : FbState X} (hs : FbValid s) (w : Nat → Frame α n) (k : Nat) :
    let y := (fbNode zero add X).ticks.out s w
    let u : Nat → Frame α n := fun j c => add (w j c) ((s.line.pushes y j).ago (fun _ => zero) s.samples c)
    (fbNode zero add X).ticks.st s w k = { s with x := X.ticks.st s.x u k, line := s.line.pushes y k } ∧
      y k = X.ticks.out s.x u k := by
  intro y u
  have hst : ∀ k, (fbNode zero add X).ticks.st s w k = { s with x := X.ticks.st s.x u k, line := s.line.pushes y k } := by
    intro k
    induction k with
    | zero => rfl
    | succ k ih =>
      have hv : FbValid ((fbNode zero add X).ticks.st s w k) := by
        clear ih
        induction k with
        | zero => exact hs
        | succ k ih => exact fbValid_tick zero add X ih _
      have hy : y k = (fbTick zero add X ((fbNode zero add X).ticks.st s w k) (w k)).2 := rfl
      show (fbTick zero add X ((fbNode zero add X).ticks.st s w k) (w k)).1 = _
      rw [ih] at hv hy ⊢
      rw [fbTick_eq zero add X hv] at hy ⊢
      show FbState.mk _ _ _ = FbState.mk _ _ _
      congr 1
      show (s.line.pushes y k).push _ = (s.line.pushes y k).push (y k)
      rw [hy]
  refine ⟨hst k, ?_⟩
  have hv : FbValid ((fbNode zero add X).ticks.st s w k) := by
    induction k with
    | zero => exact hs
    | succ k ih => exact fbValid_tick zero add X ih _
  show (fbTick zero add X ((fbNode zero add X).ticks.st s w k) (w k)).2 = _
  rw [hst k] at hv ⊢
  rw [fbTick_eq zero add X hv]
  rfl

/-- **C38.** `FeedbackUnit`: after a reset the output is the solution of `y[k] = x(in + y delayed by d samples)[k]`. -/
theorem C38_unit (zero : α) (add : α → α → α) (X : Node α n n) (s : FbState X) (hs : FbValid s) (w : Nat → Frame α n) :
    LoopSolution zero add s.samples (fun v k => X.ticks.out (X.reset s.x) v k) w
      ((fbNode zero add X).ticks.out ((fbNode zero add X).reset s) w) := by
  intro k
  have hr := fbValid_reset zero hs
  have := (fb_st zero add X hr w k).2
  refine this.trans (X.ticks.out_congr _ _ _ k (fun j _ => ?_))
  funext c
  congr 1
  have h := Line.ago_fed hs.valid (fun _ : Fin n => zero) ((fbNode zero add X).ticks.out ((fbNode zero add X).reset s) w) j hs.pos hs.room
  exact congrFun h c

/-- A step of size `m` of the reading index. -/
theorem advance_eq {p r : Nat} (hr : r < 2 ^ p) (k : Nat) : advance (2 ^ p - 1) r k = (r + k) % 2 ^ p := by
  induction k with
  | zero => exact (Nat.mod_eq_of_lt hr).symm
  | succ k ih =>
    show (advance (2 ^ p - 1) r k + 1) &&& (2 ^ p - 1) = _
    rw [Nat.and_two_pow_sub_one_eq_mod, ih, Nat.mod_add_mod]
    congr 1

theorem fbWrite_eq {p : Nat} (out : Nat → Frame α n) (m : Nat) : ∀ k (s : Line (Frame α n)), s.buf.length = 2 ^ p → s.Valid →
    fbWrite (2 ^ p - 1) out k m s.i s.buf = (s.pushes (fun j => out (k + j)) m).buf ∧ (s.pushes (fun j => out (k + j)) m).i = (s.i + m) % 2 ^ p := by
  induction m with
  | zero => intro k s hL hv; exact ⟨rfl, (Nat.mod_eq_of_lt (hL ▸ hv)).symm⟩
  | succ m ih =>
    intro k s hL hv
    have hcomm : ∀ m, (s.push (out k)).pushes (fun j => out (k + 1 + j)) m = s.pushes (fun j => out (k + j)) (m + 1) := by
      intro m
      induction m with
      | zero => rfl
      | succ m ih =>
        show ((s.push (out k)).pushes _ m).push _ = (s.pushes _ (m + 1)).push (out (k + (m + 1)))
        rw [ih]; beta_reduce; rw [show k + 1 + m = k + (m + 1) by omega]
    have hL' : (s.push (out k)).buf.length = 2 ^ p := by rw [Line.push_length]; exact hL
    obtain ⟨a, b⟩ := ih (k + 1) (s.push (out k)) hL' (hv.push _)
    rw [hcomm] at a b
    have hi : (s.push (out k)).i = (s.i + 1) % 2 ^ p := by
      show (s.i + 1) % s.buf.length = _
      rw [hL]
    constructor
    · show fbWrite (2 ^ p - 1) out (k + 1) m ((s.i + 1) &&& (2 ^ p - 1)) (s.buf.set s.i (out k)) = _
      rw [Nat.and_two_pow_sub_one_eq_mod, ← a, hi]; rfl
    · rw [b, hi, Nat.mod_add_mod]; congr 1; omega

theorem fbLoop_eq (zero : α) (add : α → α → α) (X : Node α n n) {p : Nat} (inp : Buf α n) (m : Nat) :
    ∀ k (s : FbState X) (out : Buf α n), FbValid s → s.line.buf.length = 2 ^ p →
      let q := tickLoop (fbTick zero add X) inp k m s out
      fbLoop zero add X (2 ^ p - 1) inp k m (readIndex s.line s.samples) s.line.i s.x s.line.buf out = (q.1.x, q.1.line.buf, q.2) ∧
      q.1.line.i = (s.line.i + m) % 2 ^ p ∧ q.1.samples = s.samples := by
  induction m with
  | zero => intro k s out hs hL; exact ⟨rfl, (Nat.mod_eq_of_lt (hL ▸ hs.valid)).symm, rfl⟩
  | succ m ih =>
    intro k s out hs hL
    have hs' := fbValid_tick zero add X hs (inp.frame k)
    have hL' : (fbTick zero add X s (inp.frame k)).1.line.buf.length = 2 ^ p := by
      show (s.line.buf.set _ _).length = _
      rw [List.length_set]; exact hL
    have hi' : (fbTick zero add X s (inp.frame k)).1.line.i = (s.line.i + 1) % 2 ^ p := by
      show (s.line.i + 1) &&& (s.line.buf.length - 1) = _
      rw [hL, Nat.and_two_pow_sub_one_eq_mod]
    have hsm : (fbTick zero add X s (inp.frame k)).1.samples = s.samples := rfl
    obtain ⟨a, b, c⟩ := ih (k + 1) _ (setSample k (fbTick zero add X s (inp.frame k)).2 out) hs' hL'
    have hroom : s.samples ≤ 2 ^ p := hL ▸ hs.room
    have hri : (readIndex s.line s.samples + 1) &&& (2 ^ p - 1) = readIndex (fbTick zero add X s (inp.frame k)).1.line (fbTick zero add X s (inp.frame k)).1.samples := by
      rw [hsm, readIndex_eq hL hroom, readIndex_eq hL' hroom, hi', Nat.and_two_pow_sub_one_eq_mod, Nat.mod_add_mod,
        Nat.add_sub_assoc hroom, Nat.add_sub_assoc hroom, Nat.mod_add_mod]
      congr 1; omega
    refine ⟨?_, ?_, c⟩
    · show fbLoop zero add X (2 ^ p - 1) inp (k + 1) m ((readIndex s.line s.samples + 1) &&& (2 ^ p - 1)) ((s.line.i + 1) &&& (2 ^ p - 1)) _ _ _ = _
      rw [hri, Nat.and_two_pow_sub_one_eq_mod, ← hi']
      exact a
    · show (tickLoop (fbTick zero add X) inp (k + 1) m _ _).1.line.i = _
      rw [b, hi', Nat.mod_add_mod]; congr 1; omega

/-- Relation between a state that has processed blocks and the state that has been ticked. -/
def FbRel {X : Node α n n} (R : X.σ → X.σ → Prop) (s m : FbState X) : Prop :=
  R s.x m.x ∧ s.line = m.line ∧ s.samples = m.samples ∧ FbValid m

theorem fb_implements (zero : α) (add : α → α → α) (X : Node α n n) {R : X.σ → X.σ → Prop} (hI : Implements X X.ticks R) :
    Implements (fbNode zero add X) (fbNode zero add X).ticks (FbRel R) := by
  have htick : ∀ (s m : FbState X) (x : Frame α n), FbRel R s m →
      FbRel R (fbTick zero add X s x).1 (fbTick zero add X m x).1 ∧ (fbTick zero add X s x).2 = (fbTick zero add X m x).2 := by
    rintro ⟨sx, sl, sd⟩ ⟨mx, ml, md⟩ x ⟨hR, rfl, rfl, hv⟩
    obtain ⟨h1, h2⟩ := hI.tick sx mx (fun c => add (x c) (sl.buf.getD (readIndex sl sd) (fun _ => zero) c)) hR
    have h2' : (X.tick sx (fun c => add (x c) (sl.buf.getD (readIndex sl sd) (fun _ => zero) c))).2
      = (X.tick mx (fun c => add (x c) (sl.buf.getD (readIndex sl sd) (fun _ => zero) c))).2 := h2
    refine ⟨⟨h1, ?_, rfl, fbValid_tick zero add X hv x⟩, h2⟩
    show (⟨_, _⟩ : Line (Frame α n)) = ⟨_, _⟩
    rw [h2']
  refine ⟨htick, ?_⟩
  intro g s m size inp out hsize hrel
  obtain ⟨hR, hline, hsm, hv⟩ := hrel
  obtain ⟨p, hL⟩ := hv.pow2
  have hroom : m.samples ≤ 2 ^ p := hL ▸ hv.room
  have hpos : 0 < 2 ^ p := Nat.two_pow_pos p
  show FbRel R (fbProcess zero add X g s size inp out).1 _ ∧ ∀ k, k < size → (fbProcess zero add X g s size inp out).2.frame k = _
  by_cases hc : size ≤ s.samples
  · -- whole block
    have hst := fun k => fb_st zero add X hv inp.frame k
    simp only [] at hst
    obtain ⟨y, hy⟩ : ∃ y : Nat → Frame α n, y = (fbNode zero add X).ticks.out m inp.frame := ⟨_, rfl⟩
    rw [← hy] at hst
    obtain ⟨u, hu⟩ : ∃ u : Nat → Frame α n, u = fun j c => add (inp.frame j c) ((m.line.pushes y j).ago (fun _ => zero) m.samples c) := ⟨_, rfl⟩
    rw [← hu] at hst
    obtain ⟨b, hb⟩ : ∃ b : Buf α n, b = fun c k => if k < size then add (inp c k)
      (s.line.buf.getD (advance (s.line.buf.length - 1) (readIndex s.line s.samples) k) (fun _ => zero) c) else g.buf n c k := ⟨_, rfl⟩
    have hbu : ∀ k, k < size → b.frame k = u k := by
      intro k hk
      rw [hb, hu]
      funext c
      show (if k < size then _ else _) = _
      rw [if_pos hk]
      show add (inp c k) _ = add (inp c k) _
      congr 1
      rw [Line.ago_pushes hv.valid _ y k hv.pos hv.room, if_neg (by omega), hline, hsm, hL,
        readIndex_eq hL hroom, advance_eq (Nat.mod_lt _ hpos), Nat.mod_add_mod]
      unfold Line.ago
      rw [hL]
      congr 2
      rw [show m.line.i + 2 ^ p - m.samples + k = m.line.i + 2 ^ p - (m.samples - k) by omega]
    obtain ⟨h1, h2⟩ := hI.process g.left s.x m.x size b out hsize hR
    have hout : ∀ k, k < size → (X.process g.left s.x size b out).2.frame k = y k := by
      intro k hk
      rw [h2 k hk, (hst k).2]
      exact X.ticks.out_congr _ _ _ k (fun j hj => hbu j (by omega))
    have hp : fbProcess zero add X g s size inp out =
        (FbState.mk (X := X) (X.process g.left s.x size b out).1
          ⟨fbWrite (s.line.buf.length - 1) (X.process g.left s.x size b out).2.frame 0 size s.line.i s.line.buf,
            (s.line.i + size) &&& (s.line.buf.length - 1)⟩ s.samples, (X.process g.left s.x size b out).2) := by
      rw [hb]; unfold fbProcess; rw [if_pos hc]
    rw [hp]
    refine ⟨?_, fun k hk => by rw [hout k hk, hy]⟩
    show FbRel R _ ((fbNode zero add X).ticks.st m inp.frame size)
    have hvs : FbValid ((fbNode zero add X).ticks.st m inp.frame size) := by
      generalize size = k
      induction k with
      | zero => exact hv
      | succ k ih => exact fbValid_tick zero add X ih _
    refine ⟨?_, ?_, ?_, hvs⟩
    · rw [(hst size).1]
      have : X.ticks.st m.x b.frame size = X.ticks.st m.x u size := X.ticks.st_congr _ _ _ size hbu
      show R _ (X.ticks.st m.x u size)
      rw [← this]; exact h1
    · rw [(hst size).1]
      show (⟨_, _⟩ : Line (Frame α n)) = m.line.pushes y size
      have hpush : ∀ k, k ≤ size → m.line.pushes (fun j => (X.process g.left s.x size b out).2.frame (0 + j)) k = m.line.pushes y k := by
        intro k
        induction k with
        | zero => intro _; rfl
        | succ k ih =>
          intro hk
          have e0 : (fun j => (X.process g.left s.x size b out).2.frame (0 + j)) k = y k := by
            beta_reduce; rw [Nat.zero_add]; exact hout k (by omega)
          show (m.line.pushes _ k).push _ = (m.line.pushes y k).push (y k)
          rw [ih (by omega), e0]
      obtain ⟨a, b⟩ := fbWrite_eq (p := p) (X.process g.left s.x size b out).2.frame size 0 m.line hL hv.valid
      rw [hpush size le_rfl] at a b
      rw [hline, hL, Nat.and_two_pow_sub_one_eq_mod, a, ← b]
    · rw [(hst size).1]; exact hsm
  · -- sample by sample
    have hvs : FbValid s := ⟨hline ▸ hv.valid, hline ▸ hv.pow2, hsm ▸ hv.pos, by rw [hline, hsm]; exact hv.room⟩
    have hLs : s.line.buf.length = 2 ^ p := by rw [hline]; exact hL
    obtain ⟨a, b, c⟩ := fbLoop_eq zero add X (p := p) inp size 0 s out hvs hLs
    have hp : fbProcess zero add X g s size inp out = tickLoop (fbTick zero add X) inp 0 size s out := by
      unfold fbProcess
      rw [if_neg hc]
      simp only []
      rw [hLs, a]
      refine Prod.ext ?_ rfl
      rw [Nat.and_two_pow_sub_one_eq_mod, ← b]
      show FbState.mk _ _ _ = _
      rw [← c]
    rw [hp]
    obtain ⟨t1, t2, _⟩ := tickLoop_spec (fbTick zero add X) (fbNode zero add X).ticks (FbRel R) htick inp size 0 s m out ⟨hR, hline, hsm, hv⟩
    simp only [Nat.zero_add] at t1 t2
    exact ⟨t1, t2⟩

/-- **C38.** Block processing of the feedback unit equals ticking whenever it does for the contained unit: for every delay, every block
size (larger or smaller than the delay), and every contents of scratch buffers. -/
theorem C38_block (zero : α) (add : α → α → α) (X : Node α n n) (hX : BlockEqualsTick X) : BlockEqualsTickOn (fbNode zero add X) FbValid := by
  obtain ⟨R, hrefl, hreset, hI⟩ := (tickBlock_iff X).2 hX
  intro w cs hcs s hs
  refine exec_of_rel (R := FbRel R) ?_ (fb_implements zero add X hI) w cs hcs 0 s s ⟨hrefl _, rfl, rfl, hs⟩
  rintro s t ⟨h1, h2, h3, h4⟩
  refine ⟨hreset _ _ h1, ?_, h3, fbValid_reset zero h4⟩
  show Line.reset _ s.line = Line.reset _ t.line
  rw [h2]

/-- **C38.** Whatever the delay, the unit prepared by `set_sample_rate` is valid, and its delay is the rounded delay but at least one
sample. -/
theorem C38_setup (zero : α) {X : Node α n n} (sx : X.σ) (r : Nat) : FbValid (fbSetup zero sx r) ∧ (fbSetup zero sx r).samples = max r 1 := by
  have hle := Chan.le_nextPowerOfTwo (max r 1)
  have h1 : 1 ≤ max r 1 := le_max_right _ _
  refine ⟨⟨?_, ?_, ?_, ?_⟩, rfl⟩
  · simp only [Line.Valid, fbSetup, List.length_replicate]; omega
  · simpa [fbSetup] using Chan.isPow2 (max r 1)
  · exact h1
  · simpa [fbSetup] using hle

/-- **C38.** Both single sample feedback nodes process blocks as ticks. -/
theorem C38_block_single (zero : α) (add : α → α → α) (op : Frame α n → Frame α n) (X Y : Node α n n) :
    BlockEqualsTick (feedbackNode zero add op X) ∧ BlockEqualsTick (feedback2Node zero add op X Y) :=
  ⟨(tickBlock_iff _).1 (tickBlock_ofTick _ _), (tickBlock_iff _).1 (tickBlock_ofTick _ _)⟩

/-- A delay of three samples around a unit that doubles its input: 1, 0, 0, 2·2... -/
example : (List.range 8).map (fun k => (fbNode (0 : Int) (· + ·) (Node.ofTick Unit id (fun s x => (s, fun c => 2 * x c)) : Node Int 1 1)).ticks.out
    (fbSetup 0 () 3) (fun k _ => if k = 0 then 1 else 0) k 0) = [2, 0, 0, 4, 0, 0, 8, 0] := rfl

end Fundsp.Delay
