import Verif.Noise.Props
import Verif.Core.ResetLeaf

/-! C19 for the noise generators. -/

namespace Fundsp.Noise
variable {α : Type}

/-- **C19** for `noise`, in blocks as well. The hypothesis holds for a new generator, and for every generator that was given its hash, see `noise_fixed`. -/
theorem C19_noise (A : NoiseArith α) (init : NoiseSt) (hi : init.reset = init) : ResetFresh (noise A) init := by
  refine resetFresh_of_eq (n := noise A) (fun s : NoiseSt => s.seed = init.seed ∧ s.hash = init.hash) ⟨rfl, rfl⟩ (fun _ _ h => h) (fun _ _ _ _ _ h => h) ?_
  rintro ⟨a, b, c⟩ ⟨h1, h2⟩
  simp only at h1 h2
  subst h1 h2
  exact hi

/-- **C19** for `mls`. -/
theorem C19_mls (A : NoiseArith α) (init : MlsSt) (hi : init.reset = init) (h1 : 1 ≤ init.mls.n) (h2 : init.mls.n ≤ 31) :
    ResetFresh (mls A) init := by
  refine resetFresh_ofTick_eq (fun s : MlsSt => s.mls.n = init.mls.n ∧ s.seed = init.seed ∧ s.hash = init.hash) ⟨rfl, rfl, rfl⟩ (fun _ _ h => h) ?_
  rintro s ⟨hn, hs, hh⟩
  have h := (C49_reset s init (by omega) (by omega) hn (by rw [hs, hh])).2.2
  obtain ⟨m, a, b⟩ := s
  obtain ⟨m', a', b'⟩ := init
  simp only at hn hs hh
  subst hs hh
  rw [← hi]
  show MlsSt.mk _ _ _ = MlsSt.mk _ _ _
  exact congrArg (fun m => MlsSt.mk m a b) h

/-- A new noise generator, one that has been given its hash (as every combinator does), one whose seed was set before its hash, and one
made with the builder method `seed` (`combinator.rs:272-276`, which resets). -/
theorem noise_fixed (h seed : BitVec 64) : NoiseSt.new.reset = NoiseSt.new ∧ (NoiseSt.new.setHash h).reset = NoiseSt.new.setHash h ∧
    ((NoiseSt.new.setSeed seed).setHash h).reset = (NoiseSt.new.setSeed seed).setHash h ∧
    ((NoiseSt.new.setSeed seed).reset).reset = (NoiseSt.new.setSeed seed).reset := by
  refine ⟨?_, rfl, rfl, rfl⟩
  show NoiseSt.mk _ _ _ = NoiseSt.mk _ _ _
  congr 1

/-- A sequence generator that has been given its hash. -/
theorem mls_fixed (m : MlsState) (h1 : 1 ≤ m.n) (h2 : m.n ≤ 31) (o : Option (BitVec 64)) (h : BitVec 64) :
    (MlsSt.reset ⟨m, o, h⟩).reset = MlsSt.reset ⟨m, o, h⟩ ∧ (MlsSt.reset ⟨m, o, h⟩).mls.n = m.n := by
  have e := C49_reset (MlsSt.reset ⟨m, o, h⟩) ⟨m, o, h⟩ (by rw [(C49_reset ⟨m, o, h⟩ ⟨m, o, h⟩ h1 h2 rfl rfl).2.1]; exact h1)
    (by rw [(C49_reset ⟨m, o, h⟩ ⟨m, o, h⟩ h1 h2 rfl rfl).2.1]; exact h2) (C49_reset ⟨m, o, h⟩ ⟨m, o, h⟩ h1 h2 rfl rfl).2.1 rfl
  refine ⟨?_, (C49_reset ⟨m, o, h⟩ ⟨m, o, h⟩ h1 h2 rfl rfl).2.1⟩
  exact congrArg (fun m => MlsSt.mk m o h) e.2.2

/-- The white noise generator as a new one, and the sequence generator of order 29 (`mls()`) inside a graph, where it has been given a hash. -/
example : ResetFresh (noise realNoise) NoiseSt.new ∧ ResetFresh (mls realNoise) (MlsSt.reset ⟨⟨29, 2 ^ 29 - 1⟩, none, 77⟩) :=
  ⟨C19_noise _ _ (noise_fixed 0 0).1,
    C19_mls _ _ (mls_fixed _ (by norm_num) (by norm_num) _ _).1 (by rw [(mls_fixed _ (by norm_num) (by norm_num) _ _).2]; norm_num)
      (by rw [(mls_fixed _ (by norm_num) (by norm_num) _ _).2]; norm_num)⟩

/-- **C19** fails for a sequence generator that is used on its own: `mls()` starts with all bits set, and `reset` puts it at a state made from the hash 0.
The first sample is 1 when new and -1 after a reset. -/
theorem C19_violation_mls : ¬ ResetFresh (mls realNoise) (⟨⟨29, 2 ^ 29 - 1⟩, none, 0⟩ : MlsSt) := by
  intro h
  have := h (fun _ _ => 0) (fun _ _ => 0) [] [.tick] (by simp) (by simp [Call.ok])
  have e := congrFun (List.cons.inj this).1 0
  have e1 : MlsState.value (MlsSt.reset (⟨⟨29, 2 ^ 29 - 1⟩, none, 0⟩ : MlsSt)).mls = 0 := by decide +kernel
  have e2 : MlsState.value ⟨29, 2 ^ 29 - 1⟩ = 1 := by decide +kernel
  have l : ((MlsState.value (MlsSt.reset (⟨⟨29, 2 ^ 29 - 1⟩, none, 0⟩ : MlsSt)).mls : ℝ)) * 2 - 1 = (MlsState.value ⟨29, 2 ^ 29 - 1⟩ : ℝ) * 2 - 1 := e
  rw [e1, e2] at l
  norm_num at l

end Fundsp.Noise
