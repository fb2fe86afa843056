import Verif.Osc.Props
import Verif.Core.ResetLeaf

/-! C19 for the oscillators. -/

namespace Fundsp.Osc

/-- What a reset does not change. -/
def SameSetup (a b : OscSt) : Prop := a.sampleDuration = b.sampleDuration ∧ a.hash = b.hash ∧ a.initialPhase = b.initialPhase

theorem reset_of_same {rnd : BitVec 64 → ℝ} {s init : OscSt} (hi : init.reset rnd = init) (h : SameSetup s init) : s.reset rnd = init := by
  obtain ⟨p, d, g, q⟩ := s
  obtain ⟨p', d', g', q'⟩ := init
  obtain ⟨rfl, rfl, rfl⟩ := h
  exact hi

/-- The states of newly made oscillators, with any sample rate and hash set before use, are fixed by `reset`. -/
theorem new_fixed (rnd : BitVec 64 → ℝ) (p sr : ℝ) (h : BitVec 64) :
    (((OscSt.new rnd).setHash rnd h).setSampleRate sr).reset rnd = ((OscSt.new rnd).setHash rnd h).setSampleRate sr ∧
    (((OscSt.withPhase rnd p).setHash rnd h).setSampleRate sr).reset rnd = ((OscSt.withPhase rnd p).setHash rnd h).setSampleRate sr := ⟨rfl, rfl⟩

section
variable (rnd : BitVec 64 → ℝ) (init : OscSt) (hi : init.reset rnd = init)
include hi

/-- **C19** for `ramp`. -/
theorem C19_ramp : ResetFresh (ramp rnd) init :=
  resetFresh_ofTick_eq (fun s => SameSetup s init) ⟨rfl, rfl, rfl⟩ (fun _ _ h => h) (fun _ h => reset_of_same hi h)

/-- **C19** for `poly_saw`. -/
theorem C19_poly_saw : ResetFresh (polySaw rnd) init :=
  resetFresh_ofTick_eq (fun s => SameSetup s init) ⟨rfl, rfl, rfl⟩ (fun _ _ h => h) (fun _ h => reset_of_same hi h)

/-- **C19** for `poly_square`. -/
theorem C19_poly_square : ResetFresh (polySquare rnd) init :=
  resetFresh_ofTick_eq (fun s => SameSetup s init) ⟨rfl, rfl, rfl⟩ (fun _ _ h => h) (fun _ h => reset_of_same hi h)

/-- **C19** for `poly_pulse`. -/
theorem C19_poly_pulse : ResetFresh (polyPulse rnd) init :=
  resetFresh_ofTick_eq (fun s => SameSetup s init) ⟨rfl, rfl, rfl⟩ (fun _ _ h => h) (fun _ h => reset_of_same hi h)

/-- **C19** for `sine`, in blocks as well. -/
theorem C19_sine : ResetFresh (sine rnd) init := by
  refine resetFresh_of_eq (n := sine rnd) (fun s => SameSetup s init) ⟨rfl, rfl, rfl⟩ (fun _ _ h => h) ?_ (fun _ h => reset_of_same hi h)
  intro g s size inp out hs
  refine tickLoop_inv (P := fun s => SameSetup s init) (fun _ _ h => h) _ _ _ _ _ ?_
  refine (itemLoop_inv (P := fun s => SameSetup s init) (fun s x h => ?_) inp _ _ s out hs : SameSetup _ init)
  have : ∀ (l : List Nat) (s : OscSt), SameSetup s init → SameSetup (l.foldl (fun s j => sineLane s (x j)) s) init := by
    intro l
    induction l with
    | nil => intro s h; exact h
    | cons a l ih => intro s h; exact ih _ h
  exact this _ _ h

end

/-- **C19** for `dsf` oscillators. -/
theorem C19_dsf (rnd : BitVec 64 → ℝ) (init : DsfSt) (hi : init.osc.reset rnd = init.osc) :
    ResetFresh (dsf1 rnd) init ∧ ResetFresh (dsf2 rnd) init := by
  constructor
  · refine resetFresh_ofTick_eq (fun s : DsfSt => SameSetup s.osc init.osc ∧ s.roughness = init.roughness ∧ s.spacing = init.spacing)
      ⟨⟨rfl, rfl, rfl⟩, rfl, rfl⟩ (fun _ _ h => h) ?_
    rintro ⟨o, r, p⟩ ⟨h, rfl, rfl⟩
    obtain ⟨o', r', p'⟩ := init
    exact congrArg (fun o => DsfSt.mk o r' p') (reset_of_same hi h)
  · refine TickFresh.ofTick (tickFresh_of_rel (n := dsf2 rnd) (P := fun s : DsfSt => SameSetup s.osc init.osc ∧ s.spacing = init.spacing)
      (R := fun s t : DsfSt => s.osc = t.osc ∧ s.spacing = t.spacing) ⟨⟨rfl, rfl, rfl⟩, rfl⟩ (fun _ _ h => h) (fun s h => ?_) (fun s h => ?_) ?_)
    · refine ⟨?_, h.2⟩
      show SameSetup (OscSt.reset rnd s.osc) init.osc
      rw [reset_of_same hi h.1]; exact ⟨rfl, rfl, rfl⟩
    · exact ⟨reset_of_same hi h.1, h.2⟩
    · rintro ⟨o, r, p⟩ ⟨o', r', p'⟩ x ⟨h1, h2⟩
      simp only at h1 h2
      subst h1 h2
      exact ⟨⟨rfl, rfl⟩, rfl⟩

/-- New oscillators of both kinds meet the hypothesis. -/
example (rnd : BitVec 64 → ℝ) : ResetFresh (sine rnd) (OscSt.withPhase rnd 0.25) ∧ ResetFresh (polyPulse rnd) (OscSt.new rnd) ∧
    ResetFresh (dsf2 rnd) (DsfSt.new rnd 1 0.5) :=
  ⟨C19_sine rnd _ rfl, C19_poly_pulse rnd _ rfl, (C19_dsf rnd _ rfl).2⟩

end Fundsp.Osc
