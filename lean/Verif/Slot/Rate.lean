import Verif.Slot.Props
import Verif.Net.RateProps

/-!
# C88: the sample rate of a slot
-/
namespace Fundsp.Slot
open Fundsp.Net
variable {U α : Type}

/-- All units the backend holds, and those in the channel, are at the rate of the slot. -/
def AtRate (rate : U → α) (b : Back U α) : Prop :=
  rate b.current = b.sr ∧ (∀ u, b.next = some u → rate u = b.sr) ∧ (∀ u, b.latest = some u → rate u = b.sr) ∧
    ∀ d ∈ b.queue, rate d.unit = b.sr

/-- Requirements on a call in state `b`: a unit given to the slot already is at the rate of the slot, and the rate is not changed while units wait in
the channel. -/
def CallAt (rate : U → α) (b : Back U α) : Call U α → Prop
  | .set d => rate d.unit = b.sr
  | .setRate _ => b.queue = []
  | _ => True

def CallsAt (S : Units U α) (P : Proc U α) (cap : Nat) (rate : U → α) : List (Call U α) → Back U α → Prop
  | [], _ => True
  | c :: cs, b => CallAt rate b c ∧ CallsAt S P cap rate cs (b.step S P cap c)

/-- The last rate that is set, `r` if there is none. -/
def lastRate (r : α) : List (Call U α) → α
  | [] => r
  | .setRate r' :: cs => lastRate r' cs
  | _ :: cs => lastRate r cs

theorem at_receive {S : Units U α} {rate : U → α} {b : Back U α} (h : AtRate rate b) (d : Upd U α) (hd : rate d.unit = b.sr) :
    AtRate rate (b.receive S d) ∧ (b.receive S d).sr = b.sr ∧ (b.receive S d).queue = b.queue := by
  obtain ⟨h1, h2, h3, h4⟩ := h
  unfold Back.receive
  split
  · exact ⟨⟨h1, fun u hu => by cases hu; exact hd, h3, h4⟩, rfl, rfl⟩
  · exact ⟨⟨h1, h2, fun u hu => by cases hu; exact hd, h4⟩, rfl, rfl⟩

theorem at_receives {S : Units U α} {rate : U → α} (q : List (Upd U α)) : ∀ {b : Back U α}, AtRate rate b → (∀ d ∈ q, rate d.unit = b.sr) →
    AtRate rate (q.foldl (Back.receive S) b) ∧ (q.foldl (Back.receive S) b).sr = b.sr := by
  induction q with
  | nil => intro b h _; exact ⟨h, rfl⟩
  | cons d q ih =>
    intro b h hq
    obtain ⟨h1, h2, _⟩ := at_receive (S := S) h d (hq d (List.mem_cons_self ..))
    obtain ⟨h3, h4⟩ := ih h1 (fun e he => (hq e (List.mem_cons_of_mem _ he)).trans h2.symm)
    exact ⟨h3, h4.trans h2⟩

theorem at_handle {S : Units U α} {rate : U → α} {b : Back U α} (h : AtRate rate b) :
    AtRate rate (b.handle S) ∧ (b.handle S).sr = b.sr ∧ (b.handle S).queue = [] := by
  obtain ⟨⟨h1, h2, h3, _⟩, h5⟩ := at_receives (S := S) b.queue h h.2.2.2
  exact ⟨⟨h1, h2, h3, fun d hd => (nomatch hd)⟩, h5, rfl⟩

theorem at_nextPhase {S : Units U α} {rate : U → α} {b : Back U α} (h : AtRate rate b) :
    AtRate rate (b.nextPhase S) ∧ (b.nextPhase S).sr = b.sr := by
  obtain ⟨h1, h2, h3, h4⟩ := h
  unfold Back.nextPhase
  split
  · exact ⟨⟨h1, h2, h3, h4⟩, rfl⟩
  · rename_i u hu
    exact ⟨⟨h2 u hu, h3, fun v hv => (nomatch hv), h4⟩, rfl⟩

theorem at_step {S : Units U α} {P : Proc U α} {rate : U → α} (hT : Tells S rate) (hP : TellsBlock P rate) (cap : Nat) {b : Back U α}
    (h : AtRate rate b) (c : Call U α) (hc : CallAt rate b c) :
    AtRate rate (b.step S P cap c) ∧ (b.step S P cap c).sr = lastRate b.sr [c] := by
  cases c with
  | set d =>
    simp only [Back.step, Back.set, lastRate]
    split
    · split
      · refine ⟨⟨h.1, h.2.1, h.2.2.1, fun e he => ?_⟩, rfl⟩
        rcases List.mem_append.1 he with he | he
        · exact h.2.2.2 e he
        · rw [List.mem_singleton] at he; rw [he]; exact hc
      · exact ⟨h, rfl⟩
    · exact ⟨h, rfl⟩
  | tick x =>
    obtain ⟨⟨h1, h2, h3, h4⟩, h5, _⟩ := at_handle (S := S) h
    simp only [Back.step, Back.tick, lastRate, Back.tick']
    generalize hb : b.handle S = b' at h1 h2 h3 h4 h5 ⊢
    cases hn : b'.next with
    | none => exact ⟨⟨(hT.tick _ _).trans h1, fun u hu => (nomatch hu), h3, h4⟩, h5⟩
    | some u =>
      simp only
      have hb'' : ∀ ph, AtRate rate { b' with current := (S.utick b'.current x).1, next := some (S.utick u x).1, phase := ph } := fun ph =>
        ⟨(hT.tick _ _).trans h1, fun v hv => by cases hv; exact (hT.tick _ _).trans (h2 u hn), h3, h4⟩
      split
      · obtain ⟨k1, k2⟩ := at_nextPhase (S := S) (hb'' _)
        exact ⟨k1, k2.trans h5⟩
      · exact ⟨hb'' _, h5⟩
  | block size x old tmp =>
    obtain ⟨⟨h1, h2, h3, h4⟩, h5, _⟩ := at_handle (S := S) h
    simp only [Back.step, Back.process, lastRate, Back.process']
    generalize hb : b.handle S = b' at h1 h2 h3 h4 h5 ⊢
    cases hn : b'.next with
    | none => exact ⟨⟨(hP _ _ _ _).trans h1, fun u hu => (nomatch hu), h3, h4⟩, h5⟩
    | some u =>
      simp only
      have hb'' : ∀ ph, AtRate rate { b' with current := (P b'.current size x old).1, next := some (P u size x tmp).1, phase := ph } := fun ph =>
        ⟨(hP _ _ _ _).trans h1, fun v hv => by cases hv; exact (hP _ _ _ _).trans (h2 u hn), h3, h4⟩
      split
      · obtain ⟨k1, k2⟩ := at_nextPhase (S := S) (hb'' _)
        exact ⟨k1, k2.trans h5⟩
      · exact ⟨hb'' _, h5⟩
  | reset =>
    obtain ⟨h1, h2, h3, h4⟩ := h
    simp only [Back.step, Back.reset, lastRate]
    split
    · rename_i u hu
      exact ⟨⟨(hT.reset _).trans (h3 u hu), fun v hv => (nomatch hv), fun v hv => (nomatch hv), h4⟩, rfl⟩
    · split
      · rename_i u hu
        exact ⟨⟨(hT.reset _).trans (h2 u hu), fun v hv => (nomatch hv), h3, h4⟩, rfl⟩
      · exact ⟨⟨(hT.reset _).trans h1, h2, h3, h4⟩, rfl⟩
  | setRate r =>
    have hc : b.queue = [] := hc
    refine ⟨⟨hT.setSR _ _, ?_, ?_, ?_⟩, rfl⟩
    · intro u hu
      obtain ⟨v, _, rfl⟩ := Option.map_eq_some_iff.1 hu
      exact hT.setSR _ _
    · intro u hu
      obtain ⟨v, _, rfl⟩ := Option.map_eq_some_iff.1 hu
      exact hT.setSR _ _
    · intro d hd
      have hd : d ∈ b.queue := hd
      rw [hc] at hd; cases hd

/-- **C88** (slot): whatever is done to a slot, the current unit and the units that are being faded in are at the rate of the slot, which is the last one
that was set. Missing: units that are not at the rate of the slot when they are given to it, as the slot does not tell them the rate, see
`C88_violation_slot`; and rate changes while units wait in the channel. -/
theorem C88_slot_partial {S : Units U α} {P : Proc U α} {rate : U → α} (hT : Tells S rate) (hP : TellsBlock P rate) (cap : Nat) (sr : α) (u : U)
    (cs : List (Call U α)) (hc : CallsAt S P cap rate cs (Back.new S sr u)) :
    (Back.run S P cap cs (Back.new S sr u)).sr = lastRate sr cs ∧
    rate (Back.run S P cap cs (Back.new S sr u)).current = lastRate sr cs ∧
    (∀ v, (Back.run S P cap cs (Back.new S sr u)).next = some v → rate v = lastRate sr cs) ∧
    ∀ v, (Back.run S P cap cs (Back.new S sr u)).latest = some v → rate v = lastRate sr cs := by
  have key : ∀ (cs : List (Call U α)) (b : Back U α), AtRate rate b → CallsAt S P cap rate cs b →
      AtRate rate (Back.run S P cap cs b) ∧ (Back.run S P cap cs b).sr = lastRate b.sr cs := by
    intro cs
    induction cs with
    | nil => intro b h _; exact ⟨h, rfl⟩
    | cons c cs ih =>
      intro b h hc
      obtain ⟨h1, h2⟩ := at_step hT hP cap h c hc.1
      obtain ⟨h3, h4⟩ := ih _ h1 hc.2
      refine ⟨h3, h4.trans ?_⟩
      rw [h2]
      cases c <;> rfl
  obtain ⟨⟨h1, h2, h3, _⟩, h5⟩ := key cs (Back.new S sr u) ⟨hT.setSR _ _, fun v hv => (nomatch hv), fun v hv => (nomatch hv), fun d hd => (nomatch hd)⟩ hc
  have h5 : (Back.run S P cap cs (Back.new S sr u)).sr = lastRate sr cs := h5
  rw [h5] at h1 h2 h3
  exact ⟨h5, h1, h2, h3⟩

/-- **C88** (slot): setting the rate tells it to the current unit and to all units that are being faded in. -/
theorem C88_slot_set_rate {S : Units U α} {rate : U → α} (hT : Tells S rate) (b : Back U α) (r : α) :
    (b.setRate S r).sr = r ∧ rate (b.setRate S r).current = r ∧ (∀ v, (b.setRate S r).next = some v → rate v = r) ∧
    ∀ v, (b.setRate S r).latest = some v → rate v = r := by
  refine ⟨rfl, hT.setSR _ _, fun u hu => ?_, fun u hu => ?_⟩
  · obtain ⟨v, _, rfl⟩ := Option.map_eq_some_iff.1 hu
    exact hT.setSR _ _
  · obtain ⟨v, _, rfl⟩ := Option.map_eq_some_iff.1 hu
    exact hT.setSR _ _

/-- **C88** is violated: a unit that is given to a slot at 48 kHz is not told the rate (`slot.rs:72-79`, `slot.rs:131-150`); it is faded in and takes over
at the rate it happens to have. -/
theorem C88_violation_slot : ∃ b : Back (DU × Int) Int,
    b = Back.run (tag Net.demo) (fun u _ _ _ => (u, fun _ _ => 0)) 1024 [.setRate 1, .set ⟨.smooth, 1, (gen1, 44100)⟩, .tick [], .tick []]
      (Back.new (tag Net.demo) 44100 (gen1, 0)) ∧ b.sr = 1 ∧ b.current.2 = 44100 ∧ b.next.isNone :=
  ⟨_, rfl, rfl, rfl, rfl⟩

/-- A slot whose rate is set first; the unit given to it has been told the rate. -/
example : ∃ b : Back (DU × Int) Int,
    b = Back.run (tag Net.demo) (fun u _ _ _ => (u, fun _ _ => 0)) 1024 [.setRate 1, .set ⟨.smooth, 1, (gen1, 1)⟩, .tick [], .tick [], .setRate 2]
      (Back.new (tag Net.demo) 44100 (gen1, 0)) ∧
    CallsAt (tag Net.demo) (fun u _ _ _ => (u, fun _ _ => 0)) 1024 Prod.snd [.setRate 1, .set ⟨.smooth, 1, (gen1, 1)⟩, .tick [], .tick [], .setRate 2]
      (Back.new (tag Net.demo) 44100 (gen1, 0)) ∧ b.sr = 2 ∧ b.current.2 = 2 :=
  ⟨_, rfl, ⟨rfl, rfl, trivial, trivial, rfl, trivial⟩, rfl, rfl⟩

end Fundsp.Slot
