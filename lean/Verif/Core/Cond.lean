import Verif.Core.ResetProps
import Verif.Core.ResetLeaf
import Verif.Core.Simd

/-! Schedules whose blocks satisfy a condition, and execution from states that cannot be told apart. -/

namespace Fundsp
variable {α : Type} {i o : Nat}

/-- Every block of the schedule satisfies `G`, a condition on its size and its input. -/
def BlocksOk (G : Nat → (Nat → Frame α i) → Prop) (w : Nat → Frame α i) : Nat → List (Call α i o) → Prop
  | _, [] => True
  | t, .tick :: cs => BlocksOk G w (t + 1) cs
  | t, .reset :: cs => BlocksOk G w t cs
  | t, .block size _ _ _ :: cs => G size (fun k => w (t + k)) ∧ BlocksOk G w (t + size) cs

theorem exec_of_rel_on {n : Node α i o} {R : n.σ → n.σ → Prop} {G : Nat → (Nat → Frame α i) → Prop}
    (hreset : ∀ s t, R s t → R (n.reset s) (n.reset t))
    (htick : ∀ s m x, R s m → R (n.tick s x).1 (n.tick m x).1 ∧ (n.tick s x).2 = (n.tick m x).2)
    (hproc : ∀ g s m size inp out (v : Nat → Frame α i), size ≤ 64 → (∀ k, k < size → inp.frame k = v k) → G size v → R s m →
      R (n.process g s size inp out).1 (n.ticks.st m v size) ∧ ∀ k, k < size → (n.process g s size inp out).2.frame k = n.ticks.out m v k)
    (w : Nat → Frame α i) (cs : List (Call α i o)) (hc : ∀ c ∈ cs, c.ok) :
    ∀ t s m, BlocksOk G w t cs → R s m → (n.exec w cs t s).2 = (n.exec w (unblock cs) t m).2 := by
  induction cs with
  | nil => intros; rfl
  | cons c cs ih =>
    have ihc := ih (fun c' h' => hc c' (List.mem_cons_of_mem _ h'))
    intro t s m hG hR
    cases c with
    | tick =>
      obtain ⟨h1, h2⟩ := htick s m (w t) hR
      simp only [Node.exec, unblock]
      rw [ihc _ _ _ hG h1, h2]
    | reset =>
      simp only [Node.exec, unblock]
      exact ihc _ _ _ hG (hreset _ _ hR)
    | block size tail old g =>
      have hs : size ≤ 64 := hc _ (List.mem_cons_self ..)
      have hin : ∀ j, j < size → (blockInput w t size tail).frame j = w (t + j) := by
        intro j hj; funext ch; simp [Buf.frame, blockInput, hj]
      obtain ⟨h1, h2⟩ := hproc g s m size (blockInput w t size tail) old (fun k => w (t + k)) hs hin hG.1 hR
      simp only [Node.exec, unblock]
      rw [exec_replicate_tick, ihc _ _ _ hG.2 h1]
      congr 1
      apply List.map_congr_left
      intro k hk
      exact h2 k (List.mem_range.1 hk)

theorem exec_same {n : Node α i o} {R : n.σ → n.σ → Prop} (hreset : ∀ s t, R s t → R (n.reset s) (n.reset t))
    (htick : ∀ s m x, R s m → R (n.tick s x).1 (n.tick m x).1 ∧ (n.tick s x).2 = (n.tick m x).2)
    (hproc : ∀ g s m size inp out, size ≤ 64 → R s m →
      R (n.process g s size inp out).1 (n.process g m size inp out).1 ∧
      ∀ k, k < size → (n.process g s size inp out).2.frame k = (n.process g m size inp out).2.frame k)
    (w : Nat → Frame α i) (cs : List (Call α i o)) (hc : ∀ c ∈ cs, c.ok) :
    ∀ t s m, R s m → R (n.exec w cs t s).1 (n.exec w cs t m).1 ∧ (n.exec w cs t s).2 = (n.exec w cs t m).2 := by
  induction cs with
  | nil => intro t s m h; exact ⟨h, rfl⟩
  | cons c cs ih =>
    have ihc := ih (fun c' h' => hc c' (List.mem_cons_of_mem _ h'))
    intro t s m hR
    cases c with
    | tick =>
      obtain ⟨h1, h2⟩ := htick s m (w t) hR
      obtain ⟨h3, h4⟩ := ihc (t + 1) _ _ h1
      simp only [Node.exec]
      exact ⟨h3, by rw [h2, h4]⟩
    | reset =>
      simp only [Node.exec]
      exact ihc _ _ _ (hreset _ _ hR)
    | block size tail old g =>
      have hs : size ≤ 64 := hc _ (List.mem_cons_self ..)
      obtain ⟨h1, h2⟩ := hproc g s m size (blockInput w t size tail) old hs hR
      obtain ⟨h3, h4⟩ := ihc (t + size) _ _ h1
      simp only [Node.exec]
      refine ⟨h3, ?_⟩
      rw [h4]
      congr 1
      apply List.map_congr_left
      intro k hk
      exact h2 k (List.mem_range.1 hk)

/-- Invariants of executions. -/
theorem exec_inv {n : Node α i o} {P : n.σ → Prop} (hreset : ∀ s, P s → P (n.reset s)) (htick : ∀ s x, P s → P (n.tick s x).1)
    (hproc : ∀ g s size inp out, P s → P (n.process g s size inp out).1) (w : Nat → Frame α i) (cs : List (Call α i o)) :
    ∀ t s, P s → P (n.exec w cs t s).1 := by
  induction cs with
  | nil => intro t s h; exact h
  | cons c cs ih =>
    intro t s h
    cases c with
    | tick => exact ih _ _ (htick _ _ h)
    | reset => exact ih _ _ (hreset _ h)
    | block size tail old g => exact ih _ _ (hproc _ _ _ _ _ h)

/-- Reset is fresh if it gives a state that cannot be told apart from the initial one. -/
theorem resetFresh_of_same {n : Node α i o} {R : n.σ → n.σ → Prop} {P : n.σ → Prop} {init : n.σ} (hreset : ∀ s t, R s t → R (n.reset s) (n.reset t))
    (htick : ∀ s m x, R s m → R (n.tick s x).1 (n.tick m x).1 ∧ (n.tick s x).2 = (n.tick m x).2)
    (hproc : ∀ g s m size inp out, size ≤ 64 → R s m →
      R (n.process g s size inp out).1 (n.process g m size inp out).1 ∧
      ∀ k, k < size → (n.process g s size inp out).2.frame k = (n.process g m size inp out).2.frame k)
    (h0 : P init) (pr : ∀ s, P s → P (n.reset s)) (pt : ∀ s x, P s → P (n.tick s x).1)
    (pp : ∀ g s size inp out, P s → P (n.process g s size inp out).1) (hR : ∀ s, P s → R (n.reset s) init) : ResetFresh n init := by
  intro w v cs ds hcs hds
  exact (exec_same hreset htick hproc v ds hds 0 _ _ (hR _ (exec_inv pr pt pp w cs 0 init h0))).2

/-- A block with a sample that differs from that of ticking. -/
theorem exec_block_ne {n : Node α i o} (w : Nat → Frame α i) (s : n.σ) (size : Nat) (tail : Buf α i) (old : Buf α o) (g : Garb α) (k : Nat) (hk : k < size)
    (h : (n.process g s size (blockInput w 0 size tail) old).2.frame k ≠ n.stream s w k) :
    (n.exec w [.block size tail old g] 0 s).2 ≠ (n.exec w (unblock [.block size tail old g]) 0 s).2 := by
  intro e
  simp only [unblock] at e
  rw [exec_replicate_tick] at e
  have e1 := congrArg (fun l => l[k]?) e
  simp only [Node.exec, List.append_nil, Nat.zero_add] at e1
  rw [List.getElem?_map, List.getElem?_map, List.getElem?_range hk] at e1
  exact h (Option.some.inj e1)

/-! ## Closure under pipe and stack -/

/-- Blocks that satisfy `G` agree with ticking, up to `R`. -/
structure RelOn (n : Node α i o) (G : Nat → (Nat → Frame α i) → Prop) (R : n.σ → n.σ → Prop) : Prop where
  reset : ∀ s t, R s t → R (n.reset s) (n.reset t)
  tick : ∀ s m x, R s m → R (n.tick s x).1 (n.tick m x).1 ∧ (n.tick s x).2 = (n.tick m x).2
  proc : ∀ g s m size inp out (v : Nat → Frame α i), size ≤ 64 → (∀ k, k < size → inp.frame k = v k) → G size v → R s m →
      R (n.process g s size inp out).1 (n.ticks.st m v size) ∧ ∀ k, k < size → (n.process g s size inp out).2.frame k = n.ticks.out m v k

/-- Calls do not tell states related by `R` apart; only the valid part of input buffers matters. -/
structure SameOn (n : Node α i o) (R : n.σ → n.σ → Prop) : Prop where
  reset : ∀ s t, R s t → R (n.reset s) (n.reset t)
  tick : ∀ s m x, R s m → R (n.tick s x).1 (n.tick m x).1 ∧ (n.tick s x).2 = (n.tick m x).2
  proc : ∀ g s m size inp inp' out out', size ≤ 64 → (∀ k, k < size → inp.frame k = inp'.frame k) → R s m →
      R (n.process g s size inp out).1 (n.process g m size inp' out').1 ∧
      ∀ k, k < size → (n.process g s size inp out).2.frame k = (n.process g m size inp' out').2.frame k

/-- `P` is kept by all calls. -/
structure KeptBy (n : Node α i o) (P : n.σ → Prop) : Prop where
  reset : ∀ s, P s → P (n.reset s)
  tick : ∀ s x, P s → P (n.tick s x).1
  proc : ∀ g s size inp out, P s → P (n.process g s size inp out).1

theorem RelOn.exec {n : Node α i o} {G : Nat → (Nat → Frame α i) → Prop} {R : n.σ → n.σ → Prop} (h : RelOn n G R) (w : Nat → Frame α i)
    (cs : List (Call α i o)) (hc : ∀ c ∈ cs, c.ok) (t : Nat) (s m : n.σ) (hG : BlocksOk G w t cs) (hR : R s m) :
    (n.exec w cs t s).2 = (n.exec w (unblock cs) t m).2 :=
  exec_of_rel_on h.reset h.tick h.proc w cs hc t s m hG hR

theorem SameOn.resetFresh {n : Node α i o} {R : n.σ → n.σ → Prop} {P : n.σ → Prop} {init : n.σ} (h : SameOn n R) (k : KeptBy n P) (h0 : P init)
    (hR : ∀ s, P s → R (n.reset s) init) : ResetFresh n init :=
  resetFresh_of_same h.reset h.tick (fun g s m size inp out hs hR => h.proc g s m size inp inp out out hs (fun _ _ => rfl) hR) h0 k.reset k.tick k.proc hR

theorem relOn_of_implements {n : Node α i o} {R : n.σ → n.σ → Prop} (hr : ∀ s t, R s t → R (n.reset s) (n.reset t)) (h : Implements n n.ticks R) :
    RelOn n (fun _ _ => True) R :=
  ⟨hr, h.tick, fun g _ _ _ inp out v hs hin _ hR => h.proc hR hs g inp out v hin⟩

theorem sameOn_of_implements {n : Node α i o} {R : n.σ → n.σ → Prop} (hr : ∀ s t, R s t → R (n.reset s) (n.reset t)) (h : Implements n n.ticks R)
    (symm : ∀ s t, R s t → R t s) (trans : ∀ s t u, R s t → R t u → R s u) : SameOn n R := by
  refine ⟨hr, h.tick, fun g s m size inp inp' out out' hs hin hR => ?_⟩
  obtain ⟨a, b⟩ := h.proc hR hs g inp out inp'.frame hin
  obtain ⟨a', b'⟩ := h.proc (trans _ _ _ (symm _ _ hR) hR) hs g inp' out' inp'.frame (fun _ _ => rfl)
  exact ⟨trans _ _ _ a (symm _ _ a'), fun k hk => (b k hk).trans (b' k hk).symm⟩

theorem implements_subsingleton {n : Node α i o} (h : TickBlock n) (hs : ∀ s t : n.σ, s = t) : Implements n n.ticks (fun _ _ => True) := by
  obtain ⟨R, h1, _, h3⟩ := h
  have hR : ∀ s t, R s t := fun s t => hs s t ▸ h1 s
  exact ⟨fun s m x _ => ⟨trivial, (h3.tick s m x (hR _ _)).2⟩, fun g s m size inp out hz _ => ⟨trivial, (h3.process g s m size inp out hz (hR _ _)).2⟩⟩

variable {j p : Nat}

theorem RelOn.pipe {X : Node α i j} {Y : Node α j o} {G : Nat → (Nat → Frame α i) → Prop} {R : X.σ → X.σ → Prop} {Q : Y.σ → Y.σ → Prop}
    (hX : RelOn X G R) (hY : RelOn Y (fun _ _ => True) Q) : RelOn (Fundsp.pipe X Y) G (fun s t => R s.1 t.1 ∧ Q s.2 t.2) := by
  refine ⟨fun _ _ h => ⟨hX.reset _ _ h.1, hY.reset _ _ h.2⟩, ?_, ?_⟩
  · rintro ⟨s, t⟩ ⟨s', t'⟩ x ⟨h1, h2⟩
    obtain ⟨a, b⟩ := hX.tick s s' x h1
    obtain ⟨c, d⟩ := hY.tick t t' (X.tick s' x).2 h2
    simp only [Fundsp.pipe, b]
    exact ⟨⟨a, c⟩, d⟩
  · rintro g ⟨s, t⟩ ⟨s', t'⟩ size inp out v hs hin hG ⟨h1, h2⟩
    obtain ⟨a, b⟩ := hX.proc g.left s s' size inp (g.buf j) v hs hin hG h1
    obtain ⟨c, d⟩ := hY.proc g.right t t' size (X.process g.left s size inp (g.buf j)).2 out (X.stream s' v) hs b trivial h2
    rw [pipe_st]
    exact ⟨⟨a, c⟩, fun k hk => by rw [pipe_out]; exact d k hk⟩

theorem SameOn.pipe {X : Node α i j} {Y : Node α j o} {R : X.σ → X.σ → Prop} {Q : Y.σ → Y.σ → Prop} (hX : SameOn X R) (hY : SameOn Y Q) :
    SameOn (Fundsp.pipe X Y) (fun s t => R s.1 t.1 ∧ Q s.2 t.2) := by
  refine ⟨fun _ _ h => ⟨hX.reset _ _ h.1, hY.reset _ _ h.2⟩, ?_, ?_⟩
  · rintro ⟨s, t⟩ ⟨s', t'⟩ x ⟨h1, h2⟩
    obtain ⟨a, b⟩ := hX.tick s s' x h1
    obtain ⟨c, d⟩ := hY.tick t t' (X.tick s' x).2 h2
    simp only [Fundsp.pipe, b]
    exact ⟨⟨a, c⟩, d⟩
  · rintro g ⟨s, t⟩ ⟨s', t'⟩ size inp inp' out out' hs hin ⟨h1, h2⟩
    obtain ⟨a, b⟩ := hX.proc g.left s s' size inp inp' (g.buf j) (g.buf j) hs hin h1
    obtain ⟨c, d⟩ := hY.proc g.right t t' size _ _ out out' hs b h2
    exact ⟨⟨a, c⟩, d⟩

theorem KeptBy.pipe {X : Node α i j} {Y : Node α j o} {P : X.σ → Prop} {Q : Y.σ → Prop} (hX : KeptBy X P) (hY : KeptBy Y Q) :
    KeptBy (Fundsp.pipe X Y) (fun s => P s.1 ∧ Q s.2) :=
  ⟨fun _ h => ⟨hX.reset _ h.1, hY.reset _ h.2⟩, fun _ _ h => ⟨hX.tick _ _ h.1, hY.tick _ _ h.2⟩, fun _ _ _ _ _ h => ⟨hX.proc _ _ _ _ _ h.1, hY.proc _ _ _ _ _ h.2⟩⟩

theorem RelOn.stack {X : Node α i o} {Y : Node α j p} {G : Nat → (Nat → Frame α i) → Prop} {R : X.σ → X.σ → Prop} {Q : Y.σ → Y.σ → Prop}
    (hX : RelOn X G R) (hY : RelOn Y (fun _ _ => True) Q) :
    RelOn (Fundsp.stack X Y) (fun size v => G size (fun k => (v k).takeL)) (fun s t => R s.1 t.1 ∧ Q s.2 t.2) := by
  refine ⟨fun _ _ h => ⟨hX.reset _ _ h.1, hY.reset _ _ h.2⟩, ?_, ?_⟩
  · rintro ⟨s, t⟩ ⟨s', t'⟩ x ⟨h1, h2⟩
    obtain ⟨a, b⟩ := hX.tick s s' x.takeL h1
    obtain ⟨c, d⟩ := hY.tick t t' x.takeR h2
    refine ⟨⟨a, c⟩, ?_⟩
    simp only [Fundsp.stack]
    rw [b, d]
  · rintro g ⟨s, t⟩ ⟨s', t'⟩ size inp out v hs hin hG ⟨h1, h2⟩
    obtain ⟨a, b⟩ := hX.proc g.left s s' size inp.subL out.subL (fun k => (v k).takeL) hs (fun k hk => by rw [Buf.subL_frame, hin k hk]) hG h1
    obtain ⟨c, d⟩ := hY.proc g.right t t' size inp.subR out.subR (fun k => (v k).takeR) hs (fun k hk => by rw [Buf.subR_frame, hin k hk]) trivial h2
    rw [stack_st]
    refine ⟨⟨a, c⟩, fun k hk => ?_⟩
    rw [stack_out]
    simp only [Fundsp.stack]
    rw [Buf.join_frame, b k hk, d k hk]

theorem SameOn.stack {X : Node α i o} {Y : Node α j p} {R : X.σ → X.σ → Prop} {Q : Y.σ → Y.σ → Prop} (hX : SameOn X R) (hY : SameOn Y Q) :
    SameOn (Fundsp.stack X Y) (fun s t => R s.1 t.1 ∧ Q s.2 t.2) := by
  refine ⟨fun _ _ h => ⟨hX.reset _ _ h.1, hY.reset _ _ h.2⟩, ?_, ?_⟩
  · rintro ⟨s, t⟩ ⟨s', t'⟩ x ⟨h1, h2⟩
    obtain ⟨a, b⟩ := hX.tick s s' x.takeL h1
    obtain ⟨c, d⟩ := hY.tick t t' x.takeR h2
    refine ⟨⟨a, c⟩, ?_⟩
    simp only [Fundsp.stack]
    rw [b, d]
  · rintro g ⟨s, t⟩ ⟨s', t'⟩ size inp inp' out out' hs hin ⟨h1, h2⟩
    obtain ⟨a, b⟩ := hX.proc g.left s s' size inp.subL inp'.subL out.subL out'.subL hs (fun k hk => by rw [Buf.subL_frame, Buf.subL_frame, hin k hk]) h1
    obtain ⟨c, d⟩ := hY.proc g.right t t' size inp.subR inp'.subR out.subR out'.subR hs (fun k hk => by rw [Buf.subR_frame, Buf.subR_frame, hin k hk]) h2
    refine ⟨⟨a, c⟩, fun k hk => ?_⟩
    simp only [Fundsp.stack]
    rw [Buf.join_frame, Buf.join_frame, b k hk, d k hk]

theorem KeptBy.stack {X : Node α i o} {Y : Node α j p} {P : X.σ → Prop} {Q : Y.σ → Prop} (hX : KeptBy X P) (hY : KeptBy Y Q) :
    KeptBy (Fundsp.stack X Y) (fun s => P s.1 ∧ Q s.2) :=
  ⟨fun _ h => ⟨hX.reset _ h.1, hY.reset _ h.2⟩, fun _ _ h => ⟨hX.tick _ _ h.1, hY.tick _ _ h.2⟩, fun _ _ _ _ _ h => ⟨hX.proc _ _ _ _ _ h.1, hY.proc _ _ _ _ _ h.2⟩⟩

theorem keptBy_trivial (n : Node α i o) : KeptBy n (fun _ => True) := ⟨fun _ _ => trivial, fun _ _ _ => trivial, fun _ _ _ _ _ _ => trivial⟩

end Fundsp
