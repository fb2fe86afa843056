import Verif.Filter.SvfInProps

/-!
# C82: reset of a subsampled filter

`C82_reset` is about the default period and `C82_violation_reset` shows that it fails for other periods. Here is what a reset does with any period.
-/
namespace Fundsp.Filter

/-- **C82.** A filter that reads its parameter inputs every `P`-th sample, and is reset after any input: it starts with an empty state and a new period, so that it
reads its inputs again at its `P`-th sample, and until then keeps the parameters it read last. -/
theorem C82_reset_period (m : SvfMode) (p : SvfParams) (P : Nat) (hP : 1 ≤ P) (w0 w : Nat → Frame ℝ m.arity) (j k : Nat) :
    (svfIn m).stream ((svfIn m).reset ((svfIn m).ticks.st ((SvfSt.new m p).setSubsample P) w0 j)) w k 0 =
      (svfTick (m.coefs (held m (held m p P w0 j) P w (k + 1)))
        (varying (fun i => m.coefs (held m (held m p P w0 j) P w (i + 1))) (0, 0) (fun i => Frame.rd (w i) 0) k) (Frame.rd (w k) 0)).2 := by
  have hp : ((SvfSt.new m p).setSubsample P).period = P := by show max 1 P = P; omega
  have h := svfIn_st m ((SvfSt.new m p).setSubsample P) rfl rfl (by rw [hp]; exact hP) w0 j
  rw [hp] at h
  rw [h]
  generalize varying _ _ _ j = ic
  exact C82_output m (SvfSt.reset ⟨held m p P w0 j, m.coefs (held m p P w0 j), ic, P, j % P⟩) (by unfold SvfSt.Consistent; rfl) rfl hP w k

/-- With period 16, a filter that is reset after 21 samples, in the middle of a period, keeps the parameters read at sample 15 for 15 samples and then reads the inputs. -/
example (p : SvfParams) (w0 w : Nat → Frame ℝ SvfMode.lowpass.arity) : held .lowpass (held .lowpass p 16 w0 21) 16 w 15 = paramsAt .lowpass p (w0 15) ∧
    held .lowpass (held .lowpass p 16 w0 21) 16 w 16 = paramsAt .lowpass p (w 15) := by
  refine ⟨rfl, rfl⟩

end Fundsp.Filter
