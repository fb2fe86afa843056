import Verif.Slot.Model

/-! # Slots: lemmas -/

namespace Fundsp.Slot
open Fundsp.Net
variable {U α : Type}

/-! ## A slot is a crossfading node of a net -/

def Back.eng (b : Back U α) : Eng U α := ⟨b.current, b.phase, ⟨b.next, 0, 0, b.fade, b.time⟩, ⟨b.latest, 0, 0, b.latestFade, b.latestTime⟩⟩

def Upd.edit (d : Upd U α) : NodeEdit U α := ⟨some d.unit, 0, 0, d.fade, d.time⟩

theorem eng_receive (S : Units U α) (b : Back U α) (d : Upd U α) : (b.receive S d).eng = b.eng.enqueue S d.edit := by
  unfold Back.receive Eng.enqueue Back.eng
  cases h : b.next <;> simp [h, Upd.edit]

theorem receive_queue (S : Units U α) (b : Back U α) (d : Upd U α) :
    (b.receive S d).queue = b.queue ∧ (b.receive S d).sr = b.sr ∧ (b.receive S d).outs = b.outs ∧ (b.receive S d).ins = b.ins ∧
    (b.receive S d).current = b.current := by
  unfold Back.receive
  split <;> exact ⟨rfl, rfl, rfl, rfl, rfl⟩

theorem receives_queue (S : Units U α) (l : List (Upd U α)) : ∀ (b : Back U α),
    (l.foldl (Back.receive S) b).queue = b.queue ∧ (l.foldl (Back.receive S) b).sr = b.sr ∧ (l.foldl (Back.receive S) b).outs = b.outs ∧
    (l.foldl (Back.receive S) b).ins = b.ins ∧ (l.foldl (Back.receive S) b).current = b.current := by
  induction l with
  | nil => intro b; exact ⟨rfl, rfl, rfl, rfl, rfl⟩
  | cons d l ih =>
    intro b
    obtain ⟨a1, a2, a3, a4, a5⟩ := receive_queue S b d
    obtain ⟨b1, b2, b3, b4, b5⟩ := ih (b.receive S d)
    exact ⟨b1.trans a1, b2.trans a2, b3.trans a3, b4.trans a4, b5.trans a5⟩

theorem handle_fields (S : Units U α) (b : Back U α) : (b.handle S).queue = [] ∧ (b.handle S).sr = b.sr ∧ (b.handle S).outs = b.outs ∧
    (b.handle S).ins = b.ins ∧ (b.handle S).current = b.current := by
  obtain ⟨_, a2, a3, a4, a5⟩ := receives_queue S b.queue b
  exact ⟨rfl, a2, a3, a4, a5⟩

theorem handle_empty (S : Units U α) (b : Back U α) (h : b.queue = []) : b.handle S = b := by
  obtain ⟨i, o, sr, c, n, f, t, p, l, lf, lt, q⟩ := b
  have h' : q = [] := h
  subst h'; rfl

theorem handle_handle (S : Units U α) (b : Back U α) : (b.handle S).handle S = b.handle S := handle_empty S _ rfl

theorem eng_receives (S : Units U α) (l : List (Upd U α)) : ∀ b : Back U α,
    (l.foldl (Back.receive S) b).eng = (l.map Upd.edit).foldl (Eng.enqueue S) b.eng := by
  induction l with
  | nil => intro b; rfl
  | cons d l ih => intro b; exact (ih _).trans (by rw [eng_receive]; rfl)

theorem eng_handle (S : Units U α) (b : Back U α) : (b.handle S).eng = (b.queue.map Upd.edit).foldl (Eng.enqueue S) b.eng :=
  eng_receives S b.queue b

theorem eng_nextPhase (S : Units U α) (b : Back U α) : (b.nextPhase S).eng = b.eng.nextPhase S := by
  unfold Back.nextPhase Eng.nextPhase Back.eng
  cases h : b.next <;> simp [h]

theorem tick'_eng (S : Units U α) (b : Back U α) (x : List α) :
    (b.tick' S x).1.eng = (b.eng.tick S b.sr x).1 ∧ (b.tick' S x).2 = (b.eng.tick S b.sr x).2 := by
  cases h : b.next with
  | none => simp only [Back.tick', Eng.tick, Back.eng, h]; simp
  | some n =>
    simp only [Back.tick', Eng.tick, Back.eng, h]
    refine ⟨?_, trivial⟩
    split
    · exact eng_nextPhase S _
    · rfl

theorem process'_eng (S : Units U α) (P : Proc U α) (b : Back U α) (size : Nat) (x old tmp : CBuf α) :
    (b.process' S P size x old tmp).1.eng = (b.eng.process S P b.sr b.outs size x old tmp).1 ∧
    (b.process' S P size x old tmp).2 = (b.eng.process S P b.sr b.outs size x old tmp).2 := by
  cases h : b.next with
  | none => simp only [Back.process', Eng.process, Back.eng, h]; simp
  | some n =>
    simp only [Back.process', Eng.process, Back.eng, h]
    refine ⟨?_, trivial⟩
    split
    · exact eng_nextPhase S _
    · rfl

theorem nextPhase_fields (S : Units U α) (b : Back U α) : (b.nextPhase S).queue = b.queue ∧ (b.nextPhase S).sr = b.sr ∧
    (b.nextPhase S).outs = b.outs ∧ (b.nextPhase S).ins = b.ins := by
  unfold Back.nextPhase
  split <;> exact ⟨rfl, rfl, rfl, rfl⟩

theorem tick'_fields (S : Units U α) (b : Back U α) (x : List α) : (b.tick' S x).1.queue = b.queue ∧ (b.tick' S x).1.sr = b.sr ∧
    (b.tick' S x).1.outs = b.outs ∧ (b.tick' S x).1.ins = b.ins := by
  cases h : b.next with
  | none => simp only [Back.tick', h]; exact ⟨trivial, trivial, trivial, trivial⟩
  | some n =>
    simp only [Back.tick', h]
    split
    · exact nextPhase_fields S _
    · exact ⟨rfl, rfl, rfl, rfl⟩

theorem process'_fields (S : Units U α) (P : Proc U α) (b : Back U α) (size : Nat) (x old tmp : CBuf α) :
    (b.process' S P size x old tmp).1.queue = b.queue ∧ (b.process' S P size x old tmp).1.sr = b.sr ∧
    (b.process' S P size x old tmp).1.outs = b.outs ∧ (b.process' S P size x old tmp).1.ins = b.ins := by
  cases h : b.next with
  | none => simp only [Back.process', h]; exact ⟨trivial, trivial, trivial, trivial⟩
  | some n =>
    simp only [Back.process', h]
    split
    · exact nextPhase_fields S _
    · exact ⟨rfl, rfl, rfl, rfl⟩

/-! ## The units of a slot in order of arrival -/

/-- A latest unit waits only while a crossfade is going on. -/
def Back.Wait (b : Back U α) : Prop := b.latest.isSome → b.next.isSome

/-- Labels of the units of the slot without the channel. -/
def Back.chain0 (lab : U → ℕ) (b : Back U α) : List ℕ := lab b.current :: ((b.next.map lab).toList ++ (b.latest.map lab).toList)

/-- Labels of all units of the slot, in order of arrival. -/
def Back.chain (lab : U → ℕ) (b : Back U α) : List ℕ := b.chain0 lab ++ b.queue.map (fun d => lab d.unit)

/-- Some units were given up, but not the last one. -/
def Less (l l' : List ℕ) : Prop := l.Sublist l' ∧ l.getLast? = l'.getLast?

theorem Less.refl (l : List ℕ) : Less l l := ⟨List.Sublist.refl l, rfl⟩
theorem Less.trans {a b c : List ℕ} (h : Less a b) (h' : Less b c) : Less a c := ⟨h.1.trans h'.1, h.2.trans h'.2⟩
theorem Less.append {a b : List ℕ} (h : Less a b) (c : List ℕ) : Less (a ++ c) (b ++ c) :=
  ⟨h.1.append (List.Sublist.refl c), by rw [List.getLast?_append, List.getLast?_append, h.2]⟩

theorem receive_chain (S : Units U α) (lab : U → ℕ) (b : Back U α) (hw : b.Wait) (d : Upd U α) :
    (b.receive S d).Wait ∧ Less ((b.receive S d).chain0 lab) (b.chain0 lab ++ [lab d.unit]) := by
  unfold Back.receive
  cases hn : b.next with
  | none =>
    have hl : b.latest = none := by
      cases hl : b.latest with
      | none => rfl
      | some u => have := hw (by rw [hl]; rfl); rw [hn] at this; cases this
    refine ⟨fun _ => rfl, ?_⟩
    simp only [Back.chain0, hn, hl, Option.map_some, Option.map_none, Option.toList_some, Option.toList_none, List.append_nil]
    exact Less.refl _
  | some n =>
    refine ⟨fun _ => rfl, ?_⟩
    cases hl : b.latest with
    | none =>
      simp only [Back.chain0, hn, hl, Option.map_some, Option.map_none, Option.toList_some, Option.toList_none]
      exact Less.refl _
    | some u =>
      simp only [Back.chain0, hn, hl, Option.map_some, Option.toList_some]
      refine ⟨?_, by simp⟩
      simp only [List.cons_append, List.nil_append]
      exact ((List.Sublist.refl _).cons _ |>.cons_cons _).cons_cons _

theorem receives_chain (S : Units U α) (lab : U → ℕ) (l : List (Upd U α)) : ∀ (b : Back U α), b.Wait →
    (l.foldl (Back.receive S) b).Wait ∧ Less ((l.foldl (Back.receive S) b).chain0 lab) (b.chain0 lab ++ l.map (fun d => lab d.unit)) := by
  induction l with
  | nil => intro b hw; exact ⟨hw, by simpa using Less.refl _⟩
  | cons d l ih =>
    intro b hw
    obtain ⟨h1, h2⟩ := receive_chain S lab b hw d
    obtain ⟨h3, h4⟩ := ih _ h1
    refine ⟨h3, h4.trans ?_⟩
    have := h2.append (l.map (fun d => lab d.unit))
    simpa using this

theorem handle_chain (S : Units U α) (lab : U → ℕ) (b : Back U α) (hw : b.Wait) :
    (b.handle S).Wait ∧ Less ((b.handle S).chain lab) (b.chain lab) := by
  obtain ⟨h1, h2⟩ := receives_chain S lab b.queue b hw
  refine ⟨h1, ?_⟩
  have : (b.handle S).chain lab = (b.queue.foldl (Back.receive S) b).chain0 lab ++ [] := rfl
  rw [this, List.append_nil]
  exact h2

/-- Labels on units that do not change. -/
structure Lab (S : Units U α) (P : Proc U α) (lab : U → ℕ) : Prop where
  tick : ∀ u x, lab (S.utick u x).1 = lab u
  proc : ∀ u size x old, lab (P u size x old).1 = lab u
  reset : ∀ u, lab (S.reset u) = lab u
  setSR : ∀ r u, lab (S.setSR r u) = lab u

theorem nextPhase_chain (S : Units U α) (lab : U → ℕ) (b : Back U α) (hw : b.Wait) (hn : b.next.isSome) :
    (b.nextPhase S).Wait ∧ Less ((b.nextPhase S).chain lab) (b.chain lab) := by
  obtain ⟨u, hu⟩ := Option.isSome_iff_exists.1 hn
  have he : b.nextPhase S = { b with current := u, fade := b.latestFade, phase := S.zero, time := b.latestTime, next := b.latest, latest := none } := by
    unfold Back.nextPhase; rw [hu]
  rw [he]
  refine ⟨fun h => Bool.noConfusion h, ?_⟩
  simp only [Back.chain, Back.chain0, hu, Option.map_some, Option.map_none, Option.toList_some, Option.toList_none, List.append_nil]
  refine Less.append ⟨?_, ?_⟩ _
  · simp only [List.singleton_append]
    exact (List.Sublist.refl _).cons _
  · simp [List.getLast?_cons]

theorem chain_of {lab : U → ℕ} {b c : Back U α} (h1 : lab b.current = lab c.current) (h2 : b.next.map lab = c.next.map lab)
    (h3 : b.latest.map lab = c.latest.map lab) (h4 : b.queue = c.queue) : b.chain lab = c.chain lab := by
  simp only [Back.chain, Back.chain0, h1, h2, h3, h4]

theorem tick'_chain (S : Units U α) (P : Proc U α) (lab : U → ℕ) (hL : Lab S P lab) (b : Back U α) (hw : b.Wait) (x : List α) :
    (b.tick' S x).1.Wait ∧ Less ((b.tick' S x).1.chain lab) (b.chain lab) := by
  cases h : b.next with
  | none =>
    have he : (b.tick' S x).1 = { b with current := (S.utick b.current x).1 } := by unfold Back.tick'; rw [h]
    rw [he]
    refine ⟨hw, ?_⟩
    rw [chain_of (b := { b with current := (S.utick b.current x).1 }) (c := b) (hL.tick _ _) rfl rfl rfl]
    exact Less.refl _
  | some n =>
    simp only [Back.tick', h]
    have hc : ∀ p, ({ b with current := (S.utick b.current x).1, next := some (S.utick n x).1, phase := p } : Back U α).chain lab = b.chain lab :=
      fun p => chain_of (hL.tick _ _) (by simp only [Option.map_some, hL.tick, h]) rfl rfl
    split
    · obtain ⟨h1, h2⟩ := nextPhase_chain S lab { b with current := (S.utick b.current x).1, next := some (S.utick n x).1, phase := S.add b.phase (S.div S.one (S.mul b.time b.sr)) } (fun _ => rfl) rfl
      rw [hc] at h2
      exact ⟨h1, h2⟩
    · rw [hc]; exact ⟨fun _ => rfl, Less.refl _⟩

theorem process'_chain (S : Units U α) (P : Proc U α) (lab : U → ℕ) (hL : Lab S P lab) (b : Back U α) (hw : b.Wait) (size : Nat) (x old tmp : CBuf α) :
    (b.process' S P size x old tmp).1.Wait ∧ Less ((b.process' S P size x old tmp).1.chain lab) (b.chain lab) := by
  cases h : b.next with
  | none =>
    have he : (b.process' S P size x old tmp).1 = { b with current := (P b.current size x old).1 } := by unfold Back.process'; rw [h]
    rw [he]
    refine ⟨hw, ?_⟩
    rw [chain_of (b := { b with current := (P b.current size x old).1 }) (c := b) (hL.proc _ _ _ _) rfl rfl rfl]
    exact Less.refl _
  | some n =>
    simp only [Back.process', h]
    have hc : ∀ p, ({ b with current := (P b.current size x old).1, next := some (P n size x tmp).1, phase := p } : Back U α).chain lab = b.chain lab :=
      fun p => chain_of (hL.proc _ _ _ _) (by simp only [Option.map_some, hL.proc, h]) rfl rfl
    split
    · obtain ⟨h1, h2⟩ := nextPhase_chain S lab { b with current := (P b.current size x old).1, next := some (P n size x tmp).1, phase := S.add b.phase (S.div (S.ofNat (min size (S.toNat (S.mul (S.mul (S.sub S.one b.phase) b.time) b.sr)))) (S.mul b.time b.sr)) } (fun _ => rfl) rfl
      rw [hc] at h2
      exact ⟨h1, h2⟩
    · rw [hc]; exact ⟨fun _ => rfl, Less.refl _⟩

theorem reset_chain (S : Units U α) (P : Proc U α) (lab : U → ℕ) (hL : Lab S P lab) (b : Back U α) :
    (b.reset S).Wait ∧ Less ((b.reset S).chain lab) (b.chain lab) := by
  cases hl : b.latest with
  | some u =>
    have he : b.reset S = { b with current := S.reset u, latest := none, next := none } := by unfold Back.reset; rw [hl]
    rw [he]
    refine ⟨fun h => Bool.noConfusion h, ?_⟩
    simp only [Back.chain, Back.chain0, hl, hL.reset, Option.map_none, Option.toList_none, Option.map_some, Option.toList_some, List.append_nil]
    refine Less.append ⟨?_, ?_⟩ _
    · exact List.Sublist.cons _ ((List.sublist_append_right _ _))
    · rw [← List.cons_append, List.getLast?_append]; rfl
  | none =>
    cases hn : b.next with
    | some u =>
      have he : b.reset S = { b with current := S.reset u, next := none } := by unfold Back.reset; rw [hl, hn]
      rw [he]
      refine ⟨fun h => (by simp only [hl] at h; exact Bool.noConfusion h), ?_⟩
      simp only [Back.chain, Back.chain0, hl, hn, hL.reset, Option.map_none, Option.toList_none, Option.map_some, Option.toList_some, List.append_nil]
      exact Less.append ⟨(List.Sublist.refl _).cons _, rfl⟩ _
    | none =>
      have he : b.reset S = { b with current := S.reset b.current } := by unfold Back.reset; rw [hl, hn]
      rw [he]
      refine ⟨fun h => (by simp only [hl] at h; exact Bool.noConfusion h), ?_⟩
      rw [chain_of (b := { b with current := S.reset b.current }) (c := b) (hL.reset _) rfl rfl rfl]
      exact Less.refl _

theorem setRate_chain (S : Units U α) (P : Proc U α) (lab : U → ℕ) (hL : Lab S P lab) (b : Back U α) (hw : b.Wait) (sr : α) :
    (b.setRate S sr).Wait ∧ (b.setRate S sr).chain lab = b.chain lab := by
  refine ⟨fun h => ?_, chain_of (hL.setSR _ _) ?_ ?_ rfl⟩
  · simp only [Back.setRate, Option.isSome_map] at h ⊢
    exact hw h
  · show (b.next.map (S.setSR sr)).map lab = b.next.map lab
    cases b.next with
    | none => rfl
    | some u => simp only [Option.map_some, hL.setSR]
  · show (b.latest.map (S.setSR sr)).map lab = b.latest.map lab
    cases b.latest with
    | none => rfl
    | some u => simp only [Option.map_some, hL.setSR]

/-- Labels of accepted `set` calls. -/
def setLab (S : Units U α) (lab : U → ℕ) (ins outs : Nat) : Call U α → List ℕ
  | .set d => if S.ins d.unit = ins ∧ S.outs d.unit = outs then [lab d.unit] else []
  | _ => []

/-- The channel never overflows: `q` messages are under way. Only ticks and blocks empty it. -/
def Roomy (cap : Nat) : Nat → List (Call U α) → Prop
  | _, [] => True
  | q, .set _ :: cs => q < cap ∧ Roomy cap (q + 1) cs
  | _, .tick _ :: cs => Roomy cap 0 cs
  | _, .block .. :: cs => Roomy cap 0 cs
  | q, .reset :: cs => Roomy cap q cs
  | q, .setRate _ :: cs => Roomy cap q cs

theorem Roomy.mono {cap : Nat} : ∀ {cs : List (Call U α)} {q q' : Nat}, q' ≤ q → Roomy cap q cs → Roomy cap q' cs
  | [], _, _, _, _ => trivial
  | .set _ :: cs, q, q', hq, h => ⟨lt_of_le_of_lt hq h.1, Roomy.mono (cs := cs) (by omega) h.2⟩
  | .tick _ :: cs, _, _, _, h => (show Roomy cap 0 cs from h)
  | .block .. :: cs, _, _, _, h => (show Roomy cap 0 cs from h)
  | .reset :: cs, _, _, hq, h => Roomy.mono (cs := cs) hq h
  | .setRate _ :: cs, _, _, hq, h => Roomy.mono (cs := cs) hq h

theorem step_fields (S : Units U α) (P : Proc U α) (cap : Nat) (b : Back U α) (c : Call U α) :
    (b.step S P cap c).ins = b.ins ∧ (b.step S P cap c).outs = b.outs := by
  cases c with
  | set d =>
    simp only [Back.step, Back.set]
    split
    · split <;> exact ⟨rfl, rfl⟩
    · exact ⟨rfl, rfl⟩
  | tick x =>
    obtain ⟨_, _, a, b'⟩ := tick'_fields S (b.handle S) x
    obtain ⟨_, _, c, d, _⟩ := handle_fields S b
    exact ⟨b'.trans d, a.trans c⟩
  | block size x old tmp =>
    obtain ⟨_, _, a, b'⟩ := process'_fields S P (b.handle S) size x old tmp
    obtain ⟨_, _, c, d, _⟩ := handle_fields S b
    exact ⟨b'.trans d, a.trans c⟩
  | reset =>
    simp only [Back.step, Back.reset]
    split
    · exact ⟨rfl, rfl⟩
    · split <;> exact ⟨rfl, rfl⟩
  | setRate sr => exact ⟨rfl, rfl⟩

/-- A call keeps or gives up units, but never the last one; a `set` adds a unit at the end. -/
theorem step_chain (S : Units U α) (P : Proc U α) (lab : U → ℕ) (hL : Lab S P lab) (cap : Nat) (b : Back U α) (hw : b.Wait) (c : Call U α)
    (cs : List (Call U α)) (hr : Roomy cap b.queue.length (c :: cs)) :
    (b.step S P cap c).Wait ∧ Less ((b.step S P cap c).chain lab) (b.chain lab ++ setLab S lab b.ins b.outs c) ∧
    Roomy cap (b.step S P cap c).queue.length cs := by
  cases c with
  | set d =>
    obtain ⟨h1, h2⟩ := hr
    simp only [Back.step, Back.set, setLab]
    rw [if_pos h1]
    split
    · refine ⟨hw, ?_, by simpa using h2⟩
      have : ({ b with queue := b.queue ++ [d] } : Back U α).chain lab = b.chain lab ++ [lab d.unit] := by
        simp [Back.chain, Back.chain0]
      rw [this]; exact Less.refl _
    · exact ⟨hw, by simpa using Less.refl _, h2.mono (by omega)⟩
  | tick x =>
    obtain ⟨h1, h2⟩ := handle_chain S lab b hw
    obtain ⟨h3, h4⟩ := tick'_chain S P lab hL (b.handle S) h1 x
    refine ⟨h3, by simpa [setLab, Back.step, Back.tick, Back.process] using h4.trans h2, ?_⟩
    have : ((b.handle S).tick' S x).1.queue = [] := (tick'_fields S (b.handle S) x).1
    show Roomy cap ((b.handle S).tick' S x).1.queue.length cs
    rw [this]; exact hr
  | block size x old tmp =>
    obtain ⟨h1, h2⟩ := handle_chain S lab b hw
    obtain ⟨h3, h4⟩ := process'_chain S P lab hL (b.handle S) h1 size x old tmp
    refine ⟨h3, by simpa [setLab, Back.step, Back.tick, Back.process] using h4.trans h2, ?_⟩
    have : ((b.handle S).process' S P size x old tmp).1.queue = [] := (process'_fields S P (b.handle S) size x old tmp).1
    show Roomy cap ((b.handle S).process' S P size x old tmp).1.queue.length cs
    rw [this]; exact hr
  | reset =>
    obtain ⟨h1, h2⟩ := reset_chain S P lab hL b
    refine ⟨h1, by simpa [setLab, Back.step] using h2, ?_⟩
    have : (b.reset S).queue = b.queue := by
      unfold Back.reset
      split
      · rfl
      · split <;> rfl
    show Roomy cap (b.reset S).queue.length cs
    rw [this]; exact hr
  | setRate sr =>
    obtain ⟨h1, h2⟩ := setRate_chain S P lab hL b hw sr
    refine ⟨h1, ?_, hr⟩
    show Less ((b.setRate S sr).chain lab) _
    rw [h2]; simpa [setLab] using Less.refl _

theorem run_chain (S : Units U α) (P : Proc U α) (lab : U → ℕ) (hL : Lab S P lab) (cap : Nat) (cs : List (Call U α)) : ∀ (b : Back U α), b.Wait →
    Roomy cap b.queue.length cs → (b.run S P cap cs).Wait ∧
      Less ((b.run S P cap cs).chain lab) (b.chain lab ++ cs.flatMap (setLab S lab b.ins b.outs)) := by
  induction cs with
  | nil => intro b hw _; exact ⟨hw, by simpa [Back.run] using Less.refl _⟩
  | cons c cs ih =>
    intro b hw hr
    obtain ⟨h1, h2, h3⟩ := step_chain S P lab hL cap b hw c cs hr
    obtain ⟨h4, h5⟩ := ih _ h1 h3
    obtain ⟨f1, f2⟩ := step_fields S P cap b c
    refine ⟨h4, h5.trans ?_⟩
    rw [f1, f2]
    have := h2.append (cs.flatMap (setLab S lab b.ins b.outs))
    simpa using this

theorem Roomy.left {cap : Nat} : ∀ {cs ds : List (Call U α)} {q : Nat}, Roomy cap q (cs ++ ds) → Roomy cap q cs
  | [], _, _, _ => trivial
  | .set _ :: cs, _, _, h => ⟨h.1, Roomy.left (cs := cs) h.2⟩
  | .tick _ :: cs, _, _, h => Roomy.left (cs := cs) (q := 0) h
  | .block .. :: cs, _, _, h => Roomy.left (cs := cs) (q := 0) h
  | .reset :: cs, _, q, h => Roomy.left (cs := cs) (q := q) h
  | .setRate _ :: cs, _, q, h => Roomy.left (cs := cs) (q := q) h

theorem step_sub (S : Units U α) (P : Proc U α) (lab : U → ℕ) (hL : Lab S P lab) (cap : Nat) (b : Back U α) (hw : b.Wait) (c : Call U α) :
    (b.step S P cap c).Wait ∧ ((b.step S P cap c).chain lab).Sublist (b.chain lab ++ setLab S lab b.ins b.outs c) := by
  by_cases hs : ∃ d, c = .set d
  · obtain ⟨d, rfl⟩ := hs
    by_cases hq : b.queue.length < cap
    · obtain ⟨h1, h2, _⟩ := step_chain S P lab hL cap b hw (.set d) [] ⟨hq, trivial⟩
      exact ⟨h1, h2.1⟩
    · have : b.step S P cap (.set d) = b := by
        simp only [Back.step, Back.set]
        rw [if_neg hq]; split <;> rfl
      rw [this]
      exact ⟨hw, List.sublist_append_left _ _⟩
  · have hr : ∀ q, Roomy cap q [c] := by
      intro q
      cases c with
      | set d => exact absurd ⟨d, rfl⟩ hs
      | _ => trivial
    obtain ⟨h1, h2, _⟩ := step_chain S P lab hL cap b hw c [] (hr _)
    exact ⟨h1, h2.1⟩

theorem run_sub (S : Units U α) (P : Proc U α) (lab : U → ℕ) (hL : Lab S P lab) (cap : Nat) (cs : List (Call U α)) : ∀ (b : Back U α), b.Wait →
    (b.run S P cap cs).Wait ∧ ((b.run S P cap cs).chain lab).Sublist (b.chain lab ++ cs.flatMap (setLab S lab b.ins b.outs)) := by
  induction cs with
  | nil => intro b hw; exact ⟨hw, by simp [Back.run]⟩
  | cons c cs ih =>
    intro b hw
    obtain ⟨h1, h2⟩ := step_sub S P lab hL cap b hw c
    obtain ⟨h4, h5⟩ := ih _ h1
    obtain ⟨f1, f2⟩ := step_fields S P cap b c
    refine ⟨h4, h5.trans ?_⟩
    rw [f1, f2]
    have := h2.append (List.Sublist.refl (cs.flatMap (setLab S lab b.ins b.outs)))
    simpa using this

end Fundsp.Slot
