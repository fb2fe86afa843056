import Verif.Rate.KeepProps
import Verif.Seq.RateDrop

/-!
# Sequencers that forget events, at rates that change

`C118_sequencer` is about sequencers that replay events. Here it is proved of sequencers without replay.
-/
namespace Fundsp.Rate.Keep
open Fundsp.Seq
section SequencerDrop
variable {n : Nat}

/-- Calls that add events, take samples or change the rate. -/
def Plain {U : Type} : ROp ℝ U n → Prop
  | .op (.push _) => True
  | .op .tick => True
  | .rate _ => True
  | _ => False

/-- Whether events can be replayed does not matter until the list of events is reset. -/
theorem rrun_replay {U : Type} (tick : U → U × Frame ℝ n) (reset : U → U) (ease : Fade → ℝ → ℝ) (setRate : ℝ → U → U) (os : List (ROp ℝ U n)) (hos : ∀ o ∈ os, Plain o)
    (p : Sp ℝ U) (b : Bool) :
    (Sp.rrun tick reset ease setRate os { p with replay := b }).2 = (Sp.rrun tick reset ease setRate os p).2 := by
  induction os generalizing p with
  | nil => rfl
  | cons o os ih =>
    have h1 : (({ p with replay := b } : Sp ℝ U).rstep tick reset ease setRate o) =
        ({ (p.rstep tick reset ease setRate o).1 with replay := b }, (p.rstep tick reset ease setRate o).2) := by
      have := hos o (List.mem_cons_self ..)
      match o, this with
      | .op (.push _), _ => rfl
      | .op .tick, _ => rfl
      | .rate r, _ =>
        simp only [Sp.rstep, Sp.setRate]
        split <;> rfl
    simp only [Sp.rrun]
    rw [h1]
    dsimp only
    rw [ih (fun x hx => hos x (List.mem_cons_of_mem _ hx))]

/-- Requirements on such calls do not depend on replay. -/
theorem DOks_replay {U : Type} (tick : U → U × Frame ℝ n) (reset : U → U) (ease : Fade → ℝ → ℝ) (setRate : ℝ → U → U) (os : List (ROp ℝ U n)) (hos : ∀ o ∈ os, Plain o)
    (p : Sp ℝ U) (b : Bool) (h : ROks tick reset ease setRate os p) : DOks tick reset ease setRate os { p with replay := b } := by
  induction os generalizing p with
  | nil => trivial
  | cons o os ih =>
    have ho := hos o (List.mem_cons_self ..)
    have h1 : (({ p with replay := b } : Sp ℝ U).rstep tick reset ease setRate o).1 = { (p.rstep tick reset ease setRate o).1 with replay := b } := by
      match o, ho with
      | .op (.push _), _ => rfl
      | .op .tick, _ => rfl
      | .rate r, _ =>
        simp only [Sp.rstep, Sp.setRate]
        split <;> rfl
    refine ⟨?_, ?_⟩
    · have h0 := h.1
      match o, ho, h0 with
      | .op (.push _), _, h0 => exact ⟨h0.1, rfl, trivial⟩
      | .op .tick, _, _ => exact ⟨trivial, rfl, trivial⟩
      | .rate r, _, h0 => exact h0.1
    · rw [h1]
      exact ih (fun x hx => hos x (List.mem_cons_of_mem _ hx)) _ h.2

theorem changing_plain {U : Type} (es : List (Ev ℝ U)) (rate : Nat → ℝ) (m : Nat) : ∀ o ∈ (changing es rate m : List (ROp ℝ U n)), Plain o := by
  intro o ho
  unfold changing at ho
  rcases List.mem_append.1 ho with h | h
  · obtain ⟨e, _, rfl⟩ := List.mem_map.1 h; trivial
  · obtain ⟨k, _, hk⟩ := List.mem_flatMap.1 h
    simp only [List.mem_cons, List.not_mem_nil, or_false] at hk
    rcases hk with rfl | rfl <;> trivial

/-- **C118, sequencers.** Through all changes of the sample rate, every event of a sequencer sounds in exactly the samples whose middle is between its start and its end in
seconds, its fades take their time in seconds, and its unit misses nothing and repeats nothing: also if the sequencer forgets events. -/
theorem C118_sequencer_forgetful (X : Node ℝ 0 n) (H : Heap ℝ X.σ) (ease : Fade → ℝ → ℝ) (setRate : ℝ → X.σ → X.σ) {sr : ℝ} (hsr : 0 < sr) {rate : Nat → ℝ}
    (hrate : ∀ k, 0 < rate k) (es : List (Ev ℝ X.σ)) (hn : (es.map (·.id)).Nodup) (m : Nat) :
    (Sq.rrun X H ease setRate (changing es rate m) (Sq.new false sr)).2 = (List.range m).map fun k c => (es.map (share X ease setRate sr rate k c)).sum := by
  rw [← C118_sequencer X H ease setRate hsr hrate es hn m, C88_seq_refines X H ease setRate true sr hsr _ (changing_oks X ease setRate hrate es hn m),
    C88_seq_refines_forgetful X H ease setRate sr hsr _
      (DOks_replay _ _ _ _ _ (changing_plain es rate m) (Sp.new true sr) false (changing_oks X ease setRate hrate es hn m))]
  exact rrun_replay _ _ _ _ _ (changing_plain es rate m) (Sp.new true sr) false

/-- The tone of 1 ms from a sequencer that forgets it: heard at the new rate in sample 8. -/
example (H : Heap ℝ rateUnit.σ) :
    (Sq.rrun rateUnit H (fun _ x => x) (fun r _ => r) (changing [tone] (fun k => if k < 8 then 8000 else 16000) 40) (Sq.new false 8000)).2 =
      (List.range 40).map fun k c => ([tone].map (share rateUnit (fun _ x => x) (fun r _ => r) 8000 (fun k => if k < 8 then 8000 else 16000) k c)).sum :=
  C118_sequencer_forgetful rateUnit H _ _ (by norm_num) (fun k => by split <;> norm_num) [tone] (by simp) 40

end SequencerDrop
end Fundsp.Rate.Keep
