import Verif.Core.Props

/-! # C19: `reset`

Observable notion of "reset gives a fresh component", and its closure under the static combinators. -/

namespace Fundsp
variable {α : Type}

/-- `init` is the state of a newly constructed component. After any schedule of ticks, resets and blocks on any input, a `reset` makes the
component indistinguishable from a new one: every later schedule on every later input gives the same frames. -/
def ResetFresh {i o} (n : Node α i o) (init : n.σ) : Prop :=
  ∀ (w v : Nat → Frame α i) (cs ds : List (Call α i o)), (∀ c ∈ cs, c.ok) → (∀ c ∈ ds, c.ok) →
    (n.exec v ds 0 (n.reset (n.exec w cs 0 init).1)).2 = (n.exec v ds 0 init).2

/-- States reached from `init` by ticks and resets. -/
inductive Reached {i o} (n : Node α i o) (init : n.σ) : n.σ → Prop
  | init : Reached n init init
  | tick {s} (x : Frame α i) : Reached n init s → Reached n init (n.tick s x).1
  | reset {s} : Reached n init s → Reached n init (n.reset s)

/-- The tick-only form used in the proofs. -/
def TickFresh {i o} (n : Node α i o) (init : n.σ) : Prop :=
  ∀ s, Reached n init s → ∀ w, n.stream (n.reset s) w = n.stream init w

theorem exec_append {i o} (n : Node α i o) (w : Nat → Frame α i) (cs ds : List (Call α i o)) :
    ∀ (t : Nat) (s : n.σ), n.exec w (cs ++ ds) t s =
      ((n.exec w ds (t + schedLen cs) (n.exec w cs t s).1).1,
        (n.exec w cs t s).2 ++ (n.exec w ds (t + schedLen cs) (n.exec w cs t s).1).2) := by
  induction cs with
  | nil => intro t s; simp [Node.exec, schedLen]
  | cons c cs ih =>
    intro t s
    cases c with
    | tick => simp only [List.cons_append, Node.exec, schedLen, Call.len, ih, Nat.add_assoc]
    | reset => simp only [List.cons_append, Node.exec, schedLen, Call.len, ih, Nat.zero_add]
    | block size tail old g =>
      simp only [List.cons_append, Node.exec, schedLen, Call.len, ih, Nat.add_assoc, List.append_assoc]

theorem exec_congr {i o} (n : Node α i o) (w w' : Nat → Frame α i) (cs : List (Call α i o)) :
    ∀ (t : Nat) (s : n.σ), (∀ k, k < t + schedLen cs → w k = w' k) → n.exec w cs t s = n.exec w' cs t s := by
  induction cs with
  | nil => intros; rfl
  | cons c cs ih =>
    intro t s h
    cases c with
    | tick =>
      simp only [schedLen, Call.len] at h
      simp only [Node.exec, h t (by omega)]
      rw [ih (t + 1) _ (fun k hk => h k (by omega))]
    | reset =>
      simp only [schedLen, Call.len] at h
      simp only [Node.exec]
      rw [ih t _ (fun k hk => h k (by omega))]
    | block size tail old g =>
      simp only [schedLen, Call.len] at h
      have hb : blockInput w t size tail = blockInput w' t size tail := by
        funext c k; simp only [blockInput]; split
        · rw [h (t + k) (by omega)]
        · rfl
      simp only [Node.exec, hb]
      rw [ih (t + size) _ (fun k hk => h k (by omega))]

theorem exec_length {i o} (n : Node α i o) (w : Nat → Frame α i) (cs : List (Call α i o)) :
    ∀ (t : Nat) (s : n.σ), (n.exec w cs t s).2.length = schedLen cs := by
  induction cs with
  | nil => intros; rfl
  | cons c cs ih =>
    intro t s
    cases c <;> simp [Node.exec, schedLen, Call.len, ih] <;> omega

theorem schedLen_append {i o} (cs ds : List (Call α i o)) : schedLen (cs ++ ds) = schedLen cs + schedLen ds := by
  induction cs with
  | nil => simp [schedLen]
  | cons c cs ih => simp [schedLen, ih, Nat.add_assoc]

theorem unblock_cons_append {i o} (cs ds : List (Call α i o)) : unblock (cs ++ ds) = unblock cs ++ unblock ds := by
  induction cs with
  | nil => rfl
  | cons c cs ih => cases c <;> simp [unblock, ih]

theorem schedLen_unblock {i o} (cs : List (Call α i o)) : schedLen (unblock cs) = schedLen cs := by
  have hr : ∀ k, schedLen (List.replicate k (Call.tick : Call α i o)) = k := by
    intro k
    induction k with
    | zero => rfl
    | succ k ih => simp [List.replicate_succ, schedLen, Call.len, ih]; omega
  induction cs with
  | nil => rfl
  | cons c cs ih => cases c <;> simp [unblock, schedLen, schedLen_append, Call.len, ih, hr]

theorem unblock_noBlock {i o} (cs : List (Call α i o)) : ∀ c ∈ unblock cs, c = .tick ∨ c = .reset := by
  induction cs with
  | nil => simp [unblock]
  | cons c cs ih =>
    cases c <;> simp only [unblock, List.mem_cons, List.mem_append, List.mem_replicate] <;> intro d hd
    · rcases hd with rfl | hd
      · exact .inl rfl
      · exact ih d hd
    · rcases hd with rfl | hd
      · exact .inr rfl
      · exact ih d hd
    · rcases hd with ⟨_, rfl⟩ | hd
      · exact .inl rfl
      · exact ih d hd

theorem reached_exec {i o} (n : Node α i o) (init : n.σ) (w : Nat → Frame α i) (cs : List (Call α i o))
    (hc : ∀ c ∈ cs, c = .tick ∨ c = .reset) : ∀ t s, Reached n init s → Reached n init (n.exec w cs t s).1 := by
  induction cs with
  | nil => intro t s h; exact h
  | cons c cs ih =>
    intro t s h
    have ih' := ih (fun c' h' => hc c' (List.mem_cons_of_mem _ h'))
    rcases hc c List.mem_cons_self with rfl | rfl
    · exact ih' _ _ (h.tick _)
    · exact ih' _ _ h.reset

/-- Two reached states with the same stream cannot be told apart by ticks and resets. -/
theorem TickFresh.exec_eq {i o} {n : Node α i o} {init : n.σ} (h : TickFresh n init) (w : Nat → Frame α i) (cs : List (Call α i o))
    (hc : ∀ c ∈ cs, c = .tick ∨ c = .reset) :
    ∀ t s s', Reached n init s → Reached n init s' → (∀ v, n.stream s v = n.stream s' v) →
      (n.exec w cs t s).2 = (n.exec w cs t s').2 := by
  induction cs with
  | nil => intros; rfl
  | cons c cs ih =>
    intro t s s' hs hs' hst
    have ih' := ih (fun c' h' => hc c' (List.mem_cons_of_mem _ h'))
    rcases hc c List.mem_cons_self with rfl | rfl
    · simp only [Node.exec]
      have h0 : (n.tick s (w t)).2 = (n.tick s' (w t)).2 := congrFun (hst (fun _ => w t)) 0
      rw [h0, ih' (t + 1) _ _ (hs.tick _) (hs'.tick _)]
      intro v
      funext k
      have := congrFun (hst (fun j => if j = 0 then w t else v (j - 1))) (1 + k)
      simp only [Node.stream, n.ticks.out_add] at this
      simp only [Mealy.st, if_pos] at this
      have e : (fun j => (fun j => if j = 0 then w t else v (j - 1)) (1 + j)) = v := by
        funext j; simp
      rw [e] at this
      exact this
    · simp only [Node.exec]
      exact ih' _ _ _ hs.reset hs'.reset (fun v => (h s hs v).trans (h s' hs' v).symm)

/-- For block-consistent components the tick-only notion gives the observable one. -/
theorem TickFresh.resetFresh {i o} {n : Node α i o} {init : n.σ} (h : TickFresh n init)
    (hb : ∀ (w : Nat → Frame α i) (cs : List (Call α i o)), (∀ c ∈ cs, c.ok) → (n.exec w cs 0 init).2 = (n.exec w (unblock cs) 0 init).2) :
    ResetFresh n init := by
  intro w v cs ds hcs hds
  -- input of the joint schedule
  let u : Nat → Frame α i := fun k => if k < schedLen cs then w k else v (k - schedLen cs)
  have key : ∀ (cs' ds' : List (Call α i o)), schedLen cs' = schedLen cs →
      (n.exec u (cs' ++ .reset :: ds') 0 init).2 =
        (n.exec w cs' 0 init).2 ++ (n.exec v ds' 0 (n.reset (n.exec w cs' 0 init).1)).2 := by
    intro cs' ds' hl
    rw [exec_append]
    have e1 : n.exec u cs' 0 init = n.exec w cs' 0 init :=
      exec_congr n _ _ _ 0 _ (fun k hk => by simp only [u]; rw [if_pos (by omega)])
    rw [e1]
    simp only [Node.exec]
    rw [exec_shift n u ds']
    congr 2
    have e2 : (fun k => u (0 + schedLen cs' + k)) = v := by
      funext k; simp only [u]; rw [if_neg (by omega)]; congr 1; omega
    rw [e2]
  have hA := hb u (cs ++ .reset :: ds) (by
    intro c hc
    rcases List.mem_append.1 hc with hc | hc
    · exact hcs c hc
    · rcases List.mem_cons.1 hc with rfl | hc
      · exact trivial
      · exact hds c hc)
  rw [unblock_cons_append] at hA
  have hur : unblock (Call.reset :: ds : List (Call α i o)) = .reset :: unblock ds := rfl
  rw [hur, key cs ds rfl, key (unblock cs) (unblock ds) (schedLen_unblock cs)] at hA
  have hB := (List.append_inj hA (by rw [exec_length, exec_length, schedLen_unblock])).2
  rw [hB, hb v ds hds]
  have hr : Reached n init (n.exec w (unblock cs) 0 init).1 :=
    reached_exec n init w _ (unblock_noBlock cs) 0 init .init
  exact h.exec_eq v _ (unblock_noBlock ds) 0 _ _ hr.reset .init (h _ hr)

/-- Conversely the observable notion contains the tick-only one. -/
theorem ResetFresh.tickFresh {i o} {n : Node α i o} {init : n.σ} (h : ResetFresh n init) : TickFresh n init := by
  intro s hs v
  have hst : ∃ (w : Nat → Frame α i) (cs : List (Call α i o)), (∀ c ∈ cs, c.ok) ∧ (n.exec w cs 0 init).1 = s := by
    induction hs with
    | init => exact ⟨v, [], by simp, rfl⟩
    | tick x _ ih =>
      obtain ⟨w, cs, hok, rfl⟩ := ih
      refine ⟨fun k => if k < schedLen cs then w k else x, cs ++ [.tick], ?_, ?_⟩
      · intro c hc
        rcases List.mem_append.1 hc with hc | hc
        · exact hok c hc
        · rw [List.mem_singleton.1 hc]; exact trivial
      · rw [exec_append, exec_congr n _ w cs 0 init (fun k hk => by rw [if_pos (by omega)])]
        simp [Node.exec]
    | reset _ ih =>
      obtain ⟨w, cs, hok, rfl⟩ := ih
      refine ⟨w, cs ++ [.reset], ?_, ?_⟩
      · intro c hc
        rcases List.mem_append.1 hc with hc | hc
        · exact hok c hc
        · rw [List.mem_singleton.1 hc]; exact trivial
      · rw [exec_append]; rfl
  obtain ⟨w, cs, hok, rfl⟩ := hst
  funext k
  have := h w v cs (List.replicate (k + 1) .tick) hok (by
    intro c hc; rw [List.eq_of_mem_replicate hc]; exact trivial)
  have e : ∀ t : n.σ, (n.exec v (List.replicate (k + 1) .tick) 0 t).2 = (List.range (k + 1)).map (n.ticks.out t v) := by
    intro t
    have := exec_replicate_tick n v (k + 1) [] 0 t
    simp only [List.append_nil] at this
    rw [this]; simp [Node.exec]
  rw [e, e] at this
  exact List.map_inj_left.1 this k (List.mem_range.2 (by omega))

end Fundsp
