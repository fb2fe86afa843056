import Verif.Gran.Sched

/-!
# The hash of a granular synthesizer

`set_hash` (`granular.rs:214-217`) sets the seed that `reset` goes back to.
-/
namespace Fundsp.Gran
open Fundsp.Seq
noncomputable section
variable {R : Type} {n : Nat} (X : Node ℝ 0 n) (H : Heap ℝ X.σ) (ease : Fade → ℝ → ℝ) (setRate : ℝ → X.σ → X.σ) (c : Cfg R X.σ)

theorem run_kept (fuel : Nat) (ops : List (Op n)) : ∀ (s s' : St R X.σ) (log : List (Grain X.σ)) (fs : List (Frame ℝ n)),
    St.run X H ease setRate c fuel ops s = .ok (s', log, fs) → s'.sr = s.sr ∧ s'.rndSeed = s.rndSeed ∧ s'.ids = s.ids + log.length := by
  induction ops with
  | nil =>
    intro s s' log fs h
    obtain ⟨q1, q2⟩ := Prod.mk.inj (Except.ok.inj h)
    obtain ⟨q2, -⟩ := Prod.mk.inj q2
    subst q1 q2
    exact ⟨rfl, rfl, rfl⟩
  | cons o ops ih =>
    intro s s' log fs h
    obtain ⟨s1, gs1, f1, gs2, f2, e1, e2, rfl, rfl⟩ := run_cons h
    obtain ⟨-, -, a3, a4, a5⟩ := step_ok e1
    obtain ⟨b1, b2, b3⟩ := ih s1 s' gs2 f2 e2
    refine ⟨b1.trans a3, b2.trans a4, ?_⟩
    rw [b3, a5, List.length_append, Nat.add_assoc]

/-- **C80.** A hash set on a new synthesizer makes it play as if it were made with that seed, with the same texture. -/
theorem C80_hash (fuel : Nat) (sr : ℝ) (seed ids hash : Nat) (ops : List (Op n)) :
    St.run X H ease setRate c fuel ops ((St.new c sr seed ids).setHash c hash) = St.run X H ease setRate c fuel ops (St.new c sr hash ids) := rfl

/-- **C80.** A hash set at any time lasts: whatever is played before and after, a reset then makes the synthesizer play as if it were made with that seed. -/
theorem C80_hash_reset (fuel : Nat) (sr : ℝ) (seed ids hash : Nat) (ops ops' : List (Op n)) (s s' : St R X.σ) (log log' : List (Grain X.σ))
    (fs fs' : List (Frame ℝ n)) (h : St.run X H ease setRate c fuel ops (St.new c sr seed ids) = .ok (s, log, fs))
    (h' : St.run X H ease setRate c fuel ops' (s.setHash c hash) = .ok (s', log', fs')) :
    St.reset c X.reset s' = St.new c sr hash (ids + log.length + log'.length) := by
  obtain ⟨a1, -, a3⟩ := run_kept X H ease setRate c fuel ops _ _ _ _ h
  obtain ⟨b1, b2, b3⟩ := run_kept X H ease setRate c fuel ops' _ _ _ _ h'
  have q : SeqOk sr s.seq := run_seq ops (s := St.new c sr seed ids) ⟨rfl, rfl, rfl⟩ h
  have q' : SeqOk sr s'.seq := run_seq ops' (s := s.setHash c hash) q h'
  have b1 : s'.sr = sr := b1.trans a1
  have b2 : s'.rndSeed = hash := b2
  have a3 : s.ids = ids + log.length := a3
  have b3 : s'.ids = ids + log.length + log'.length := by rw [← a3]; exact b3
  unfold St.reset St.new Sq.reset Sq.new
  rw [if_neg (by rw [q'.replay]; simp), b1, b2, b3, q'.replay, q'.sr, q'.sd]

/-- Two grains' worth of samples, a hash, nothing more played, and a reset. -/
example (H : Heap ℝ Nat) (ease : Fade → ℝ → ℝ) (setRate : ℝ → Nat → Nat) (m ids : Nat) :
    ∃ s log fs, St.run hashNode H ease setRate duo m (List.replicate m .tick) (St.new duo 1 0 ids) = .ok (s, log, fs) ∧
      St.reset duo hashNode.reset (s.setHash duo 7) = St.new duo 1 7 (ids + log.length) := by
  have e : total (List.replicate m (Op.tick : Op 1)) 1 = m := by simp [total, Op.samples]
  obtain ⟨⟨s, log, fs⟩, h⟩ := C80_total hashNode H ease setRate duo 2 ⟨by norm_num, fun _ _ _ _ _ _ => ⟨le_refl _, by show (0 : ℝ) + 2 ≤ 2; norm_num⟩⟩ 1 one_pos 0 ids
    (List.replicate m .tick) m (by
      rw [e]
      have : (0 : ℝ) ≤ m := Nat.cast_nonneg m
      linarith)
  exact ⟨s, log, fs, h, C80_hash_reset hashNode H ease setRate duo m 1 0 ids 7 _ [] s _ log [] fs [] h rfl⟩

end
end Fundsp.Gran
