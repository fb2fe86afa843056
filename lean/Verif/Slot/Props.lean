import Verif.Slot.Lemmas

/-! # C25: a slot ends up playing the unit set last -/

namespace Fundsp.Slot
open Fundsp.Net
variable {U α : Type}

/-- The label of the unit set last, or of the initial unit. A specification that does not look into the slot. -/
def lastSet (lab : U → ℕ) (first : ℕ) (cs : List (Call U α)) : ℕ :=
  cs.foldl (fun l c => match c with | .set d => lab d.unit | _ => l) first

/-- All units given to `set` have the arity of the slot; otherwise `set` panics. -/
def Fits (S : Units U α) (ins outs : Nat) (cs : List (Call U α)) : Prop :=
  ∀ d, Call.set d ∈ cs → S.ins d.unit = ins ∧ S.outs d.unit = outs

/-- No crossfade is going on or waiting: nothing in the channel, and the slot plays a single unit. -/
def Back.Settled (b : Back U α) : Prop := b.queue = [] ∧ b.next = none ∧ b.latest = none

theorem wait_new (S : Units U α) (sr : α) (u : U) : (Back.new S sr u).Wait := fun h => Bool.noConfusion h

theorem setLabs_eq {S : Units U α} {lab : U → ℕ} {ins outs : Nat} {cs : List (Call U α)} (hf : Fits S ins outs cs) (l0 : List ℕ) (first : ℕ)
    (h : l0.getLast? = some first) : (l0 ++ cs.flatMap (setLab S lab ins outs)).getLast? = some (lastSet lab first cs) := by
  induction cs generalizing l0 first with
  | nil => simpa [lastSet] using h
  | cons c cs ih =>
    have hf' : Fits S ins outs cs := fun d hd => hf d (List.mem_cons_of_mem _ hd)
    rw [List.flatMap_cons, ← List.append_assoc]
    refine ih hf' _ _ ?_
    cases c with
    | set d => simp only [setLab]; rw [if_pos (hf d (List.mem_cons_self ..))]; simp
    | tick x => simpa [setLab] using h
    | block => simpa [setLab] using h
    | reset => simpa [setLab] using h
    | setRate sr => simpa [setLab] using h

/-- **C25** (the last unit plays): after any history of `set`, `tick`, `process`, `reset` and `set_sample_rate` calls, if no crossfade is going on or
waiting, the slot plays the unit set last, and its output is exactly the output of that unit. Missing:
overflow of the channel, see `C25_violation_overflow`. -/
theorem C25_settled_partial (S : Units U α) (P : Proc U α) (lab : U → ℕ) (hL : Lab S P lab) (cap : Nat) (sr : α) (u0 : U) (cs : List (Call U α))
    (hf : Fits S (S.ins u0) (S.outs u0) cs) (hr : Roomy cap 0 cs) :
    let b := (Back.new S sr u0).run S P cap cs
    b.Settled → ∃ u, lab u = lastSet lab (lab u0) cs ∧ (∀ x, (b.tick S x).2 = (S.utick u x).2) ∧
      ∀ size x old tmp, (b.process S P size x old tmp).2 = (P u size x old).2 := by
  intro b hs
  obtain ⟨h1, h2, h3⟩ := run_chain S P lab hL cap cs (Back.new S sr u0) (wait_new S sr u0) hr
  have hn : (Back.new S sr u0).chain lab = [lab u0] := by
    simp [Back.chain, Back.chain0, Back.new, hL.setSR]
  have hb : b.chain lab = [lab b.current] := by
    obtain ⟨q, n, l⟩ := hs
    simp [Back.chain, Back.chain0, q, n, l]
  have hc : (b.chain lab).getLast? = some (lastSet lab (lab u0) cs) := by
    refine h3.trans ?_
    rw [hn]
    exact setLabs_eq (S := S) hf [lab u0] (lab u0) rfl
  rw [hb] at hc
  refine ⟨b.current, by simpa using hc, fun x => ?_, fun size x old tmp => ?_⟩
  · rw [Back.tick, handle_empty S b hs.1, Back.tick', hs.2.1]
  · rw [Back.process, handle_empty S b hs.1, Back.process', hs.2.1]

/-- **C25** (order): if units are labelled in the order in which they are set, then the label of the unit being played never decreases, and a unit that is
faded in was set after the unit that is faded out. -/
theorem C25_never_back (S : Units U α) (P : Proc U α) (lab : U → ℕ) (hL : Lab S P lab) (cap : Nat) (sr : α) (u0 : U) (cs ds : List (Call U α))
    (ho : (lab u0 :: (cs ++ ds).flatMap (setLab S lab (S.ins u0) (S.outs u0))).Pairwise (· < ·)) :
    let b := (Back.new S sr u0).run S P cap cs
    let b' := (Back.new S sr u0).run S P cap (cs ++ ds)
    lab b.current ≤ lab b'.current ∧ (∀ n, b'.next = some n → lab b'.current < lab n) ∧
    lab b'.current ∈ lab u0 :: (cs ++ ds).flatMap (setLab S lab (S.ins u0) (S.outs u0)) := by
  intro b b'
  have hn : (Back.new S sr u0).chain lab = [lab u0] := by
    simp [Back.chain, Back.chain0, Back.new, hL.setSR]
  obtain ⟨w1, l1⟩ := run_sub S P lab hL cap cs (Back.new S sr u0) (wait_new S sr u0)
  have hio : ∀ (cs : List (Call U α)) (b : Back U α), (b.run S P cap cs).ins = b.ins ∧ (b.run S P cap cs).outs = b.outs := by
    intro cs
    induction cs with
    | nil => intro b; exact ⟨rfl, rfl⟩
    | cons c cs ih => intro b; exact ⟨(ih _).1.trans (step_fields S P cap b c).1, (ih _).2.trans (step_fields S P cap b c).2⟩
  have hb' : b' = b.run S P cap ds := by
    simp only [b', b, Back.run, List.foldl_append]
  obtain ⟨w2, l2⟩ := run_sub S P lab hL cap ds b w1
  rw [(hio cs (Back.new S sr u0)).1, (hio cs (Back.new S sr u0)).2, ← hb'] at l2
  change (b'.chain lab).Sublist (b.chain lab ++ ds.flatMap (setLab S lab (S.ins u0) (S.outs u0))) at l2
  change (b.chain lab).Sublist ((Back.new S sr u0).chain lab ++ cs.flatMap (setLab S lab (S.ins u0) (S.outs u0))) at l1
  have hall : (b'.chain lab).Sublist (lab u0 :: (cs ++ ds).flatMap (setLab S lab (S.ins u0) (S.outs u0))) := by
    refine l2.trans ?_
    have := l1.append (List.Sublist.refl (ds.flatMap (setLab S lab (S.ins u0) (S.outs u0))))
    rw [hn] at this
    simpa [List.flatMap_append] using this
  have hsort : (b.chain lab ++ ds.flatMap (setLab S lab (S.ins u0) (S.outs u0))).Pairwise (· < ·) := by
    refine ho.sublist ?_
    have := l1.append (List.Sublist.refl (ds.flatMap (setLab S lab (S.ins u0) (S.outs u0))))
    rw [hn] at this
    simpa [List.flatMap_append] using this
  refine ⟨?_, ?_, ?_⟩
  · -- the head of a sublist of a sorted list
    have hmem : lab b'.current ∈ b.chain lab ++ ds.flatMap (setLab S lab (S.ins u0) (S.outs u0)) := by
      refine l2.subset ?_
      simp [Back.chain, Back.chain0]
    rw [Back.chain, Back.chain0, List.cons_append, List.cons_append] at hmem hsort
    rcases List.mem_cons.1 hmem with h | h
    · exact h.ge
    · exact ((List.pairwise_cons.1 hsort).1 _ h).le
  · intro n hn'
    have := ho.sublist hall
    rw [Back.chain, Back.chain0, hn'] at this
    simp only [Option.map_some, Option.toList_some, List.cons_append, List.pairwise_cons] at this
    exact this.1 _ (by simp)
  · refine hall.subset ?_
    simp [Back.chain, Back.chain0]

/-! ## Crossfades end -/

/-- Sample rates and fade times are positive; fade times are at most `τ`. -/
def CallOk (τ : ℝ) : Call U ℝ → Prop
  | .set d => 0 < d.time ∧ d.time ≤ τ
  | .setRate sr => 0 < sr
  | _ => True

structure Inv (τ : ℝ) (b : Back U ℝ) : Prop where
  sr : 0 < b.sr
  fade : FadeInv b.sr b.eng
  next : b.next.isSome → b.time ≤ τ
  latest : b.latest.isSome → b.latestTime ≤ τ
  queue : ∀ d ∈ b.queue, 0 < d.time ∧ d.time ≤ τ

section
variable {S : Units U ℝ} (hA : S.toArith = realArith)
include hA

theorem inv_receive {τ : ℝ} {b : Back U ℝ} (h : Inv τ b) (d : Upd U ℝ) (hd : 0 < d.time ∧ d.time ≤ τ) : Inv τ (b.receive S d) := by
  obtain ⟨q1, q2, _, _, _⟩ := receive_queue S b d
  have P : Proc U ℝ := fun u _ x _ => (u, x)
  have hf : FadeInv b.sr (b.receive S d).eng := by
    rw [eng_receive]
    exact fadeInv_ev hA P 0 h.fade (.edit d.edit) ⟨rfl, mul_pos hd.1 h.sr⟩
  refine ⟨by rw [q2]; exact h.sr, by rw [q2]; exact hf, ?_, ?_, by rw [q1]; exact h.queue⟩
  · unfold Back.receive
    cases hn : b.next with
    | none => exact fun _ => hd.2
    | some n => exact fun _ => h.next (by rw [hn]; rfl)
  · unfold Back.receive
    cases hn : b.next with
    | none => exact h.latest
    | some n => exact fun _ => hd.2

theorem inv_receives {τ : ℝ} (l : List (Upd U ℝ)) : ∀ {b : Back U ℝ}, Inv τ b → (∀ d ∈ l, 0 < d.time ∧ d.time ≤ τ) →
    Inv τ (l.foldl (Back.receive S) b) := by
  induction l with
  | nil => intro b h _; exact h
  | cons d l ih =>
    intro b h hl
    exact ih (inv_receive hA h d (hl d (by simp))) (fun d hd => hl d (by simp [hd]))

theorem inv_handle {τ : ℝ} {b : Back U ℝ} (h : Inv τ b) : Inv τ (b.handle S) := by
  obtain ⟨a, b', c, d, _⟩ := inv_receives hA b.queue h h.queue
  exact ⟨a, b', c, d, fun d hd => by cases hd⟩

theorem inv_tick {τ : ℝ} {b : Back U ℝ} (h : Inv τ b) (x : List ℝ) : Inv τ (b.tick S x).1 := by
  have h' := inv_handle hA h
  set c := b.handle S with hc
  obtain ⟨f1, f2, _, _⟩ := tick'_fields S c x
  have P : Proc U ℝ := fun u _ x _ => (u, x)
  have he := (tick'_eng S c x).1
  have hf := fadeInv_ev hA P 0 h'.fade (.tick x) trivial
  have hb : FadesBelow c.sr (τ * c.sr) c.eng :=
    ⟨fun k => mul_le_mul_of_nonneg_right (h'.next k) h'.sr.le, fun k => mul_le_mul_of_nonneg_right (h'.latest k) h'.sr.le⟩
  have hb' := fadesBelow_ev hA P 0 hb (.tick x) (fun d hd => by cases hd)
  simp only [Eng.ev] at hf hb'
  rw [← he] at hf hb'
  show Inv τ (c.tick' S x).1
  refine ⟨by rw [f2]; exact h'.sr, by rw [f2]; exact hf, fun k => ?_, fun k => ?_, by rw [f1]; exact h'.queue⟩
  · exact le_of_mul_le_mul_right (hb'.1 k) h'.sr
  · exact le_of_mul_le_mul_right (hb'.2 k) h'.sr

theorem inv_process {τ : ℝ} (P : Proc U ℝ) {b : Back U ℝ} (h : Inv τ b) (size : Nat) (x old tmp : CBuf ℝ) : Inv τ (b.process S P size x old tmp).1 := by
  have h' := inv_handle hA h
  set c := b.handle S with hc
  obtain ⟨f1, f2, _, _⟩ := process'_fields S P c size x old tmp
  have he := (process'_eng S P c size x old tmp).1
  have hf := fadeInv_ev hA P c.outs h'.fade (.block size x old tmp) trivial
  have hb : FadesBelow c.sr (τ * c.sr) c.eng :=
    ⟨fun k => mul_le_mul_of_nonneg_right (h'.next k) h'.sr.le, fun k => mul_le_mul_of_nonneg_right (h'.latest k) h'.sr.le⟩
  have hb' := fadesBelow_ev hA P c.outs hb (.block size x old tmp) (fun d hd => by cases hd)
  simp only [Eng.ev] at hf hb'
  rw [← he] at hf hb'
  show Inv τ (c.process' S P size x old tmp).1
  refine ⟨by rw [f2]; exact h'.sr, by rw [f2]; exact hf, fun k => ?_, fun k => ?_, by rw [f1]; exact h'.queue⟩
  · exact le_of_mul_le_mul_right (hb'.1 k) h'.sr
  · exact le_of_mul_le_mul_right (hb'.2 k) h'.sr

theorem inv_step {τ : ℝ} (P : Proc U ℝ) (cap : Nat) {b : Back U ℝ} (h : Inv τ b) (hw : b.Wait) (c : Call U ℝ) (hc : CallOk τ c) :
    Inv τ (b.step S P cap c) := by
  cases c with
  | set d =>
    simp only [Back.step, Back.set]
    split
    · split
      · refine ⟨h.sr, h.fade, h.next, h.latest, fun d' hd' => ?_⟩
        rcases List.mem_append.1 hd' with h1 | h1
        · exact h.queue d' h1
        · rw [List.mem_singleton] at h1; subst h1; exact hc
      · exact h
    · exact h
  | tick x => exact inv_tick hA h x
  | block size x old tmp => exact inv_process hA P h size x old tmp
  | reset =>
    have key : (b.reset S).next = none ∧ (b.reset S).latest = none ∧ (b.reset S).sr = b.sr ∧ (b.reset S).queue = b.queue := by
      unfold Back.reset
      split
      · exact ⟨rfl, rfl, rfl, rfl⟩
      · rename_i hl
        split
        · exact ⟨rfl, hl, rfl, rfl⟩
        · rename_i hn; exact ⟨hn, hl, rfl, rfl⟩
    obtain ⟨k1, k2, k3, k4⟩ := key
    show Inv τ (b.reset S)
    refine ⟨by rw [k3]; exact h.sr, fadeInv_fresh ⟨k1, k2⟩, fun c => ?_, fun c => ?_, by rw [k4]; exact h.queue⟩
    · rw [k1] at c; cases c
    · rw [k2] at c; cases c
  | setRate sr =>
    have hc' : 0 < sr := hc
    have pos : ∀ t : ℝ, 0 < t * b.sr → 0 < t * sr := fun t ht => mul_pos ((mul_pos_iff_of_pos_right h.sr).1 ht) hc'
    refine ⟨hc', ⟨fun k => ?_, fun k => ?_⟩, fun k => ?_, fun k => ?_, h.queue⟩
    · simp only [Back.step, Back.setRate, Back.eng, Option.isSome_map] at k ⊢
      obtain ⟨a, b', c'⟩ := h.fade.next k
      exact ⟨a, b', pos _ c'⟩
    · simp only [Back.step, Back.setRate, Back.eng, Option.isSome_map] at k ⊢
      obtain ⟨a, b'⟩ := h.fade.latest k
      exact ⟨a, pos _ b'⟩
    · simp only [Back.step, Back.setRate, Option.isSome_map] at k ⊢
      exact h.next k
    · simp only [Back.step, Back.setRate, Option.isSome_map] at k ⊢
      exact h.latest k

omit hA in
theorem wait_step (P : Proc U ℝ) (cap : Nat) {b : Back U ℝ} (hw : b.Wait) (c : Call U ℝ) : (b.step S P cap c).Wait := by
  have hL : Lab S P (fun _ => 0) := ⟨fun _ _ => rfl, fun _ _ _ _ => rfl, fun _ => rfl, fun _ _ => rfl⟩
  cases c with
  | set d =>
    simp only [Back.step, Back.set]
    split
    · split <;> exact hw
    · exact hw
  | tick x => exact (tick'_chain S P _ hL _ (handle_chain S (fun _ => 0) b hw).1 x).1
  | block size x old tmp => exact (process'_chain S P _ hL _ (handle_chain S (fun _ => 0) b hw).1 size x old tmp).1
  | reset => exact (reset_chain S P _ hL b).1
  | setRate sr => exact (setRate_chain S P _ hL b hw sr).1

theorem inv_run {τ : ℝ} (P : Proc U ℝ) (cap : Nat) (cs : List (Call U ℝ)) : ∀ {b : Back U ℝ}, Inv τ b → b.Wait → (∀ c ∈ cs, CallOk τ c) →
    Inv τ (b.run S P cap cs) ∧ (b.run S P cap cs).Wait := by
  induction cs with
  | nil => intro b h hw _; exact ⟨h, hw⟩
  | cons c cs ih =>
    intro b h hw hc
    exact ih (inv_step hA P cap h hw c (hc c (by simp))) (wait_step P cap hw c) (fun c hc' => hc c (by simp [hc']))

omit hA in
theorem inv_new {τ : ℝ} {sr : ℝ} (hsr : 0 < sr) (u : U) : Inv τ (Back.new S sr u) :=
  ⟨hsr, fadeInv_fresh ⟨rfl, rfl⟩, fun h => Bool.noConfusion h, fun h => Bool.noConfusion h, fun d hd => by cases hd⟩

/-- Enough ticks and blocks end all crossfades of a node. -/
theorem quiet_settle {P : Proc U ℝ} (sr : ℝ) (outs : Nat) (T : ℝ) (e : Eng U ℝ) (hi : FadeInv sr e) (hb : FadesBelow sr T e)
    (q1 q2 : List (NodeEv U)) (hq1 : ∀ v ∈ q1, Quiet v) (hq2 : ∀ v ∈ q2, Quiet v)
    (hs1 : T ≤ ((q1.map Net.samples).sum : ℕ)) (hs2 : T ≤ ((q2.map Net.samples).sum : ℕ)) : (after S P sr outs e (q1 ++ q2)).Fresh := by
  have hL : Label S P (fun _ => 0) := ⟨fun _ _ => rfl, fun _ _ _ _ => rfl⟩
  have hleft : ∀ e : Eng U ℝ, e.next.unit.isSome → FadeInv sr e → FadesBelow sr T e → (1 - e.phase) * (e.next.time * sr) ≤ T := by
    intro e hn hi hb
    obtain ⟨a, b, c⟩ := hi.next hn
    have := hb.1 hn
    nlinarith
  have keep : ∀ (f : Eng U ℝ) (l : List (NodeEv U)), f.Fresh → (∀ v ∈ l, Quiet v) → (after S P sr outs f l).Fresh := by
    intro f l hf hl
    have := fresh_quiet hL sr outs l f hf hl
    have h2 : labels (fun _ => 0) f = (0, none, none) := by simp [labels, hf.1, hf.2]
    exact (labels_fresh (this.trans h2)).1
  have hq : ∀ v ∈ q1 ++ q2, Quiet v := fun v hv => (List.mem_append.1 hv).elim (hq1 v) (hq2 v)
  cases hn : e.next.unit with
  | none =>
    refine keep e _ ⟨hn, ?_⟩ hq
    cases hl : e.latest.unit with
    | none => rfl
    | some u => have := (hi.latest (by rw [hl]; rfl)).1; rw [hn] at this; cases this
  | some nx =>
    obtain ⟨a, b, hab, r1, r2, r3⟩ := quiet_finish hA hL sr outs q1 e nx hn hi hq1 (le_trans (hleft e (by rw [hn]; rfl) hi hb) hs1)
    rw [hab, List.append_assoc, after_append]
    set f := after S P sr outs e a with hf
    have hi' : FadeInv sr f := fadeInv_evs hA P outs a hi (fun v hv => quiet_ok (hq1 v (by rw [hab]; simp [hv])))
    have hb' : FadesBelow sr T f := fadesBelow_evs hA P outs a hb (fun d hd => absurd (hq1 (.edit d) (by rw [hab]; exact List.mem_append_left _ hd)) id)
    have hl : f.latest.unit = none := by
      have := congrArg (fun x => x.2.2) r1
      simpa [labels] using this
    have hqb : ∀ v ∈ b ++ q2, Quiet v := fun v hv => hq v (by rw [hab, List.append_assoc]; exact List.mem_append_right _ hv)
    cases hn' : f.next.unit with
    | none => exact keep f _ ⟨hn', hl⟩ hqb
    | some n' =>
      obtain ⟨a', b', hab', s1, _, _⟩ := quiet_finish hA hL sr outs (b ++ q2) f n' hn' hi' hqb (by
        refine le_trans (hleft f (by rw [hn']; rfl) hi' hb') (le_trans hs2 ?_)
        rw [List.map_append, List.sum_append]
        exact_mod_cast Nat.le_add_left _ _)
      rw [hl] at s1
      rw [hab', after_append]
      exact keep _ _ (labels_fresh s1).1 (fun v hv => hqb v (by rw [hab']; exact List.mem_append_right _ hv))

end

/-- Ticks and blocks. -/
def Runs : Call U ℝ → Option (NodeEv U)
  | .tick x => some (.tick x)
  | .block size x old tmp => some (.block size x old tmp)
  | _ => none

/-- Number of samples rendered by a call. -/
def count : Call U ℝ → ℕ
  | .tick _ => 1
  | .block size _ _ _ => size
  | _ => 0

/-- Only ticks and blocks. -/
def Playing (q : List (Call U ℝ)) : Prop := ∀ c ∈ q, (Runs c).isSome

theorem run_playing (S : Units U ℝ) (P : Proc U ℝ) (cap : Nat) (q : List (Call U ℝ)) : ∀ (b : Back U ℝ), Playing q → b.queue = [] →
    (b.run S P cap q).eng = after S P b.sr b.outs b.eng (q.filterMap Runs) ∧ (b.run S P cap q).queue = [] ∧ (b.run S P cap q).sr = b.sr := by
  induction q with
  | nil => intro b _ h; exact ⟨rfl, h, rfl⟩
  | cons c q ih =>
    intro b hp hq
    have hp' : Playing q := fun c hc => hp c (by simp [hc])
    have hc := hp c (by simp)
    cases c with
    | set d => cases hc
    | reset => cases hc
    | setRate sr => cases hc
    | tick x =>
      have hs : b.step S P cap (.tick x) = (b.tick' S x).1 := by simp only [Back.step, Back.tick]; rw [handle_empty S b hq]
      obtain ⟨f1, f2, f3, _⟩ := tick'_fields S b x
      obtain ⟨a1, a2, a3⟩ := ih (b.step S P cap (.tick x)) hp' (by rw [hs, f1, hq])
      rw [hs, f2, f3, (tick'_eng S b x).1] at a1
      rw [hs] at a2 a3
      have hr : b.run S P cap (.tick x :: q) = (b.tick' S x).1.run S P cap q := by simp only [Back.run, List.foldl_cons, hs]
      rw [hr]
      exact ⟨a1, a2, a3.trans f2⟩
    | block size x old tmp =>
      have hs : b.step S P cap (.block size x old tmp) = (b.process' S P size x old tmp).1 := by
        simp only [Back.step, Back.process]; rw [handle_empty S b hq]
      obtain ⟨f1, f2, f3, _⟩ := process'_fields S P b size x old tmp
      obtain ⟨a1, a2, a3⟩ := ih (b.step S P cap (.block size x old tmp)) hp' (by rw [hs, f1, hq])
      rw [hs, f2, f3, (process'_eng S P b size x old tmp).1] at a1
      rw [hs] at a2 a3
      have hr : b.run S P cap (.block size x old tmp :: q) = (b.process' S P size x old tmp).1.run S P cap q := by
        simp only [Back.run, List.foldl_cons, hs]
      rw [hr]
      exact ⟨a1, a2, a3.trans f2⟩

theorem step_handle (S : Units U ℝ) (P : Proc U ℝ) (cap : Nat) (b : Back U ℝ) (c : Call U ℝ) (hc : (Runs c).isSome) :
    b.step S P cap c = (b.handle S).step S P cap c := by
  cases c with
  | set d => cases hc
  | reset => cases hc
  | setRate sr => cases hc
  | tick x => simp only [Back.step, Back.tick, handle_handle]
  | block size x old tmp => simp only [Back.step, Back.process, handle_handle]

theorem count_runs (q : List (Call U ℝ)) (hp : Playing q) : ((q.filterMap Runs).map Net.samples).sum = (q.map count).sum := by
  induction q with
  | nil => rfl
  | cons c q ih =>
    have hp' : Playing q := fun c hc => hp c (by simp [hc])
    have hc := hp c (by simp)
    cases c with
    | set d => cases hc
    | reset => cases hc
    | setRate sr => cases hc
    | tick x => simp only [List.filterMap_cons, Runs, List.map_cons, List.sum_cons, Net.samples, count, ih hp']
    | block size x old tmp => simp only [List.filterMap_cons, Runs, List.map_cons, List.sum_cons, Net.samples, count, ih hp']

/-- **C25** (crossfades end): after any history with positive sample rates and fade times of at most `τ` seconds, two runs of ticks and blocks that each
last at least `τ` seconds end all crossfades. -/
theorem C25_finishes {S : Units U ℝ} (hA : S.toArith = realArith) (P : Proc U ℝ) (cap : Nat) (sr : ℝ) (hsr : 0 < sr) (u0 : U) (τ : ℝ) (hτ : 0 < τ)
    (cs : List (Call U ℝ)) (hc : ∀ c ∈ cs, CallOk τ c) (q1 q2 : List (Call U ℝ)) (hq1 : Playing q1) (hq2 : Playing q2)
    (hs1 : τ * ((Back.new S sr u0).run S P cap cs).sr ≤ ((q1.map count).sum : ℕ))
    (hs2 : τ * ((Back.new S sr u0).run S P cap cs).sr ≤ ((q2.map count).sum : ℕ)) :
    ((Back.new S sr u0).run S P cap (cs ++ q1 ++ q2)).Settled := by
  obtain ⟨hi, hw⟩ := inv_run hA P cap cs (inv_new (τ := τ) (S := S) hsr u0) (wait_new S sr u0) hc
  set b := (Back.new S sr u0).run S P cap cs with hb
  have hrun : (Back.new S sr u0).run S P cap (cs ++ q1 ++ q2) = b.run S P cap (q1 ++ q2) := by
    simp only [hb, Back.run, List.foldl_append]
  rw [hrun]
  have hT : 0 < τ * b.sr := mul_pos hτ hi.sr
  have hp : Playing (q1 ++ q2) := fun c hc => (List.mem_append.1 hc).elim (hq1 c) (hq2 c)
  have hne : q1 ++ q2 ≠ [] := by
    intro h
    rw [List.append_eq_nil_iff] at h
    rw [h.1] at hs1
    simp at hs1
    linarith
  -- the first call empties the channel
  have hfirst : b.run S P cap (q1 ++ q2) = (b.handle S).run S P cap (q1 ++ q2) := by
    cases hq : q1 ++ q2 with
    | nil => exact absurd hq hne
    | cons c l =>
      simp only [Back.run, List.foldl_cons]
      rw [step_handle S P cap b c (hp c (by rw [hq]; simp))]
  rw [hfirst]
  have hi' := inv_handle hA hi
  have hsr' : (b.handle S).sr = b.sr := (handle_fields S b).2.1
  obtain ⟨r1, r2, r3⟩ := run_playing S P cap (q1 ++ q2) (b.handle S) hp rfl
  have hfresh : ((b.handle S).run S P cap (q1 ++ q2)).eng.Fresh := by
    rw [r1, List.filterMap_append]
    refine quiet_settle hA _ _ (τ * b.sr) _ hi'.fade ⟨fun k => ?_, fun k => ?_⟩ _ _ ?_ ?_ ?_ ?_
    · rw [hsr']; exact mul_le_mul_of_nonneg_right (hi'.next k) hi.sr.le
    · rw [hsr']; exact mul_le_mul_of_nonneg_right (hi'.latest k) hi.sr.le
    · intro v hv
      obtain ⟨c, _, hcv⟩ := List.mem_filterMap.1 hv
      cases c <;> simp [Runs] at hcv <;> subst hcv <;> trivial
    · intro v hv
      obtain ⟨c, _, hcv⟩ := List.mem_filterMap.1 hv
      cases c <;> simp [Runs] at hcv <;> subst hcv <;> trivial
    · rw [count_runs q1 hq1]; exact hs1
    · rw [count_runs q2 hq2]; exact hs2
  exact ⟨r2, hfresh.1, hfresh.2⟩

/-- **C25** (the last `set` wins): after any history, once two runs of ticks and blocks as long as the longest fade time have passed without a further `set`,
the output of the slot is the output of the unit set last. Missing: overflow of the channel, see `C25_violation_overflow`. -/
theorem C25_last_set_wins_partial {S : Units U ℝ} (hA : S.toArith = realArith) (P : Proc U ℝ) (lab : U → ℕ) (hL : Lab S P lab) (cap : Nat) (sr : ℝ)
    (hsr : 0 < sr) (u0 : U) (τ : ℝ) (hτ : 0 < τ) (cs : List (Call U ℝ)) (hc : ∀ c ∈ cs, CallOk τ c) (hf : Fits S (S.ins u0) (S.outs u0) cs)
    (q1 q2 : List (Call U ℝ)) (hq1 : Playing q1) (hq2 : Playing q2) (hr : Roomy cap 0 (cs ++ q1 ++ q2))
    (hs1 : τ * ((Back.new S sr u0).run S P cap cs).sr ≤ ((q1.map count).sum : ℕ))
    (hs2 : τ * ((Back.new S sr u0).run S P cap cs).sr ≤ ((q2.map count).sum : ℕ)) :
    ∃ u, lab u = lastSet lab (lab u0) cs ∧ ∀ x, (((Back.new S sr u0).run S P cap (cs ++ q1 ++ q2)).tick S x).2 = (S.utick u x).2 := by
  have hfits : Fits S (S.ins u0) (S.outs u0) (cs ++ q1 ++ q2) := by
    intro d hd
    rcases List.mem_append.1 hd with hd | hd
    · rcases List.mem_append.1 hd with hd | hd
      · exact hf d hd
      · exact absurd (hq1 _ hd) Bool.noConfusion
    · exact absurd (hq2 _ hd) Bool.noConfusion
  obtain ⟨u, h1, h2, _⟩ := C25_settled_partial S P lab hL cap sr u0 (cs ++ q1 ++ q2) hfits hr
    (C25_finishes hA P cap sr hsr u0 τ hτ cs hc q1 q2 hq1 hq2 hs1 hs2)
  refine ⟨u, h1.trans ?_, h2⟩
  have hkeep : ∀ (l : List (Call U ℝ)) (f : ℕ), Playing l → lastSet lab f l = f := by
    intro l
    induction l with
    | nil => intro f _; rfl
    | cons c l ih =>
      intro f hl
      have hc' := hl c (by simp)
      have := ih f (fun c hc => hl c (by simp [hc]))
      cases c with
      | set d => cases hc'
      | reset => cases hc'
      | setRate sr => cases hc'
      | tick x => exact this
      | block => exact this
  simp only [lastSet, List.foldl_append] at hkeep ⊢
  rw [hkeep q2 _ hq2, hkeep q1 _ hq1]

/-! ## Mixing -/

/-- **C25** (crossfades, ticks): after any history, the output of a tick is the output of one unit of the slot, or a mixture of two with weights in the unit
interval, which sum to one for `Fade::Smooth`. -/
theorem C25_mix_tick {S : Units U ℝ} (hA : S.toArith = realArith) (P : Proc U ℝ) (cap : Nat) (sr : ℝ) (hsr : 0 < sr) (u0 : U) (τ : ℝ)
    (cs : List (Call U ℝ)) (hc : ∀ c ∈ cs, CallOk τ c) (x : List ℝ) :
    let b := (Back.new S sr u0).run S P cap cs
    (∃ u, (b.tick S x).2 = (S.utick u x).2) ∨
    ∃ u n f w1 w2, Weights f w1 w2 ∧ (b.tick S x).2 = List.zipWith (fun a b => a * w1 + b * w2) (S.utick u x).2 (S.utick n x).2 := by
  intro b
  obtain ⟨hi, _⟩ := inv_run hA P cap cs (inv_new (τ := τ) (S := S) hsr u0) (wait_new S sr u0) hc
  have hi' := inv_handle hA hi
  have he := (tick'_eng S (b.handle S) x).2
  rw [Back.tick, he]
  cases hn : (b.handle S).eng.next.unit with
  | none => left; exact ⟨_, by rw [Eng.tick_plain S _ _ hn]⟩
  | some nx =>
    right
    obtain ⟨p, q, _⟩ := hi'.fade.next (by rw [hn]; rfl)
    exact ⟨_, nx, _, _, _, weights _ p q.le, by rw [tick_fade hA _ _ hn]⟩

/-- **C25** (crossfades, blocks). -/
theorem C25_mix_block {S : Units U ℝ} (hA : S.toArith = realArith) (P : Proc U ℝ) (cap : Nat) (sr : ℝ) (hsr : 0 < sr) (u0 : U) (τ : ℝ)
    (cs : List (Call U ℝ)) (hc : ∀ c ∈ cs, CallOk τ c) (size : ℕ) (x old tmp : CBuf ℝ) (k : ℕ) (hk : k < size) :
    let b := (Back.new S sr u0).run S P cap cs
    (∃ u buf, ∀ c, c < b.outs → (b.process S P size x old tmp).2 c k = (P u size x buf).2 c k) ∨
    ∃ u n f w1 w2, Weights f w1 w2 ∧ ∀ c, c < b.outs →
      (b.process S P size x old tmp).2 c k = (P u size x old).2 c k * w1 + (P n size x tmp).2 c k * w2 := by
  intro b
  obtain ⟨hi, _⟩ := inv_run hA P cap cs (inv_new (τ := τ) (S := S) hsr u0) (wait_new S sr u0) hc
  have hi' := inv_handle hA hi
  have he := (process'_eng S P (b.handle S) size x old tmp).2
  have ho : (b.handle S).outs = b.outs := (handle_fields S b).2.2.1
  rw [Back.process, he, ho]
  cases hn : (b.handle S).eng.next.unit with
  | none => left; exact ⟨(b.handle S).eng.unit, old, fun c _ => by simp only [Eng.process, hn]⟩
  | some nx =>
    obtain ⟨p, q, hT⟩ := hi'.fade.next (by rw [hn]; rfl)
    have hp := (process_fade hA P (b.handle S).sr b.outs (b.handle S).eng hn size x old tmp).2
    set e := (b.handle S).eng with hee
    set r := (b.handle S).sr with hrr
    by_cases hl : k < ⌊(1 - e.phase) * e.next.time * r⌋₊
    · right
      refine ⟨e.unit, nx, e.next.fade, _, _, weights e.next.fade (t := e.phase + k / (e.next.time * r)) (by positivity) ?_, fun c hc => ?_⟩
      · have h2 : (k : ℝ) < (1 - e.phase) * e.next.time * r := by
          refine lt_of_lt_of_le (Nat.cast_lt.2 hl) (Nat.floor_le ?_)
          rw [mul_assoc]; exact mul_nonneg (by linarith) hT.le
        rw [← le_sub_iff_add_le', div_le_iff₀ hT]
        rw [mul_assoc] at h2
        exact h2.le
      · rw [hp c k hc hk, if_pos hl]
    · left
      refine ⟨nx, tmp, fun c hc => ?_⟩
      rw [hp c k hc hk, if_neg hl]

/-! ## What can go wrong -/

/-- **C25** violation: when the channel is full (1024 sets without a tick or block in between), a further `set` is lost without notice. -/
theorem C25_violation_overflow (S : Units U α) (P : Proc U α) (cap : Nat) (sr : α) (u0 : U) (ds : List (Upd U α)) (d : Upd U α)
    (hd : ∀ d ∈ ds, S.ins d.unit = S.ins u0 ∧ S.outs d.unit = S.outs u0) (hc : ds.length = cap) (cs : List (Call U α)) :
    (Back.new S sr u0).run S P cap (ds.map .set ++ .set d :: cs) = (Back.new S sr u0).run S P cap (ds.map .set ++ cs) := by
  suffices h : ∀ (ds : List (Upd U α)) (b : Back U α), (∀ d ∈ ds, S.ins d.unit = b.ins ∧ S.outs d.unit = b.outs) → b.queue.length + ds.length = cap →
      b.run S P cap (ds.map .set ++ .set d :: cs) = b.run S P cap (ds.map .set ++ cs) from h ds _ hd (by simpa [Back.new] using hc)
  intro ds
  induction ds with
  | nil =>
    intro b _ hq
    simp only [List.length_nil, Nat.add_zero] at hq
    simp only [List.map_nil, List.nil_append, Back.run, List.foldl_cons, Back.step]
    have : b.set S cap d = b := by
      unfold Back.set
      split
      · rw [if_neg (by omega)]
      · rfl
    rw [this]
  | cons e ds ih =>
    intro b hb hq
    simp only [List.length_cons] at hq
    simp only [List.map_cons, List.cons_append, Back.run, List.foldl_cons, Back.step]
    have : b.set S cap e = { b with queue := b.queue ++ [e] } := by
      unfold Back.set
      rw [if_pos (hb e (by simp)), if_pos (by omega)]
    rw [this]
    exact ih { b with queue := b.queue ++ [e] } (fun d hd => hb d (by simp [hd])) (by simp; omega)

/-- Units that are sample rates. -/
noncomputable def rateUnits : Units ℝ ℝ where
  toArith := realArith
  ins := fun _ => 0
  outs := fun _ => 1
  setSR := fun r _ => r
  reset := fun u => u
  ping := fun _ h u => (u, h)
  utick := fun u _ => (u, [u])
  binop := fun _ => 0
  const := fun x => x
  dummy := fun _ _ => 0

def rateProc : Proc ℝ ℝ := fun u _ _ _ => (u, fun _ _ => u)

theorem rate_lost (P : Proc ℝ ℝ) (T : Units ℝ ℝ) (h1 : T.setSR = fun r _ => r) (h2 : T.utick = fun u _ => (u, [u])) (h3 : T.reset = fun u => u)
    (h4 : T.ins = fun _ => 0) (h5 : T.outs = fun _ => 1) :
    let b := (Back.new T 44100 44100).run T P 1024 [.setRate 48000, .set ⟨.smooth, 1, 44100⟩, .tick [], .reset]
    b.sr = 48000 ∧ (b.tick T []).2 = [44100] := by
  intro b
  have hb : b = (((Back.new T 44100 44100).setRate T 48000).set T 1024 ⟨.smooth, 1, 44100⟩ |>.tick T []).1.reset T := rfl
  rw [hb]
  simp only [Back.new, Back.setRate, Back.set, h1, h4, h5, Option.map_none, and_self, if_true, List.length_nil, List.nil_append]
  norm_num
  simp only [Back.tick, Back.handle, List.foldl_cons, List.foldl_nil, Back.receive, Back.tick', h2, Back.nextPhase]
  split <;> simp [Back.reset, h3]

/-- **C25** violation: `set_sample_rate` of the backend does not reach units that are set later; the unit plays with the sample rate it came with. Units here
are sample rates, see `rateUnits`. -/
theorem C25_violation_rate :
    let b := (Back.new rateUnits 44100 44100).run rateUnits rateProc 1024 [.setRate 48000, .set ⟨.smooth, 1, 44100⟩, .tick [], .reset]
    b.sr = 48000 ∧ (b.tick rateUnits []).2 = [44100] := by
  exact rate_lost rateProc rateUnits rfl rfl rfl rfl rfl

/-! ## Non-vacuity -/

theorem rateLab : Lab rateUnits rateProc (fun _ => 0) := ⟨fun _ _ => rfl, fun _ _ _ _ => rfl, fun _ => rfl, fun _ _ => rfl⟩

/-- Units with a label and a constant output. -/
noncomputable def labUnits : Units (ℕ × ℝ) ℝ where
  toArith := realArith
  ins := fun _ => 0
  outs := fun _ => 1
  setSR := fun _ u => u
  reset := fun u => u
  ping := fun _ h u => (u, h)
  utick := fun u _ => (u, [u.2])
  binop := fun _ => (0, 0)
  const := fun x => (0, x)
  dummy := fun _ _ => (0, 0)

def labProc : Proc (ℕ × ℝ) ℝ := fun u _ _ _ => (u, fun _ _ => u.2)

theorem labLab : Lab labUnits labProc Prod.fst := ⟨fun _ _ => rfl, fun _ _ _ _ => rfl, fun _ => rfl, fun _ _ => rfl⟩

/-- Three units set in a row; the second one is never heard. -/
noncomputable def demo : List (Call (ℕ × ℝ) ℝ) := [.tick [], .set ⟨.smooth, 2, (1, 10)⟩, .tick [], .set ⟨.power, 1, (2, 20)⟩, .set ⟨.smooth, 2, (3, 30)⟩]

/-- `C25_last_set_wins_partial`, `C25_finishes`, `C25_settled_partial`: the slot ends up with unit 3. -/
example : ∃ u : ℕ × ℝ, u.1 = 3 ∧ ∀ x, (((Back.new labUnits 1 (0, 0)).run labUnits labProc 1024
    (demo ++ List.replicate 2 (.tick []) ++ List.replicate 2 (.tick []))).tick labUnits x).2 = (labUnits.utick u x).2 := by
  have hsr : ((Back.new labUnits 1 (0, 0)).run labUnits labProc 1024 demo).sr = 1 := by
    simp only [demo, Back.run, List.foldl_cons, List.foldl_nil, Back.step]
    have hset : ∀ (b : Back (ℕ × ℝ) ℝ) d, (b.set labUnits 1024 d).sr = b.sr := by
      intro b d; unfold Back.set; split
      · split <;> rfl
      · rfl
    have htick : ∀ (b : Back (ℕ × ℝ) ℝ) x, (b.tick labUnits x).1.sr = b.sr := fun b x =>
      (tick'_fields labUnits _ x).2.1.trans (handle_fields labUnits b).2.1
    rw [hset, hset, htick, hset, htick]; rfl
  have hplay : Playing (List.replicate 2 (Call.tick [] : Call (ℕ × ℝ) ℝ)) := by
    intro c hc; rw [List.eq_of_mem_replicate hc]; rfl
  refine C25_last_set_wins_partial rfl labProc Prod.fst labLab 1024 1 one_pos (0, 0) 2 two_pos demo ?_ ?_ _ _ hplay hplay ?_ ?_ ?_
  · intro c hc
    simp only [demo, List.mem_cons, List.not_mem_nil, or_false] at hc
    rcases hc with rfl | rfl | rfl | rfl | rfl <;> simp [CallOk]
  · intro d _; exact ⟨rfl, rfl⟩
  · simp [demo, Roomy]
  · rw [hsr]; norm_num [count]
  · rw [hsr]; norm_num [count]

/-- `C25_never_back` on the same calls. -/
example : ((0 : ℕ) :: (demo ++ [Call.tick []]).flatMap (setLab labUnits Prod.fst 0 1)).Pairwise (· < ·) := by
  have : (demo ++ [Call.tick []]).flatMap (setLab labUnits Prod.fst 0 1) = [1, 2, 3] := by
    simp [demo, setLab, labUnits]
  rw [this]; decide

end Fundsp.Slot
