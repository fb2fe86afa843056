import Verif.Env.Props
import Verif.Core.ResetProps

/-!
# C19 for envelopes
-/

noncomputable section
namespace Fundsp.Env

/-- Resets of an envelope start it anew, sample by sample. -/
theorem envelope_tickFresh {o : Nat} (rnd : BitVec 64 → ℝ) (env : ℝ → Frame ℝ o) (interval sr : ℝ) (hash : BitVec 64) :
    TickFresh (envelope rnd env) (newSt env interval sr hash) := by
  have hk : ∀ s : EnvSt o Unit, (s.norm (next rnd env)).hash = s.hash ∧ (s.norm (next rnd env)).interval = s.interval ∧ (s.norm (next rnd env)).dt = s.dt :=
    norm_fields rnd env
  refine tickFresh_of_rel (n := envelope rnd env) (fun s : EnvSt o Unit => s.hash = hash ∧ s.interval = interval ∧ s.dt = 1 / sr)
    (fun s t : EnvSt o Unit => s.norm (next rnd env) = t.norm (next rnd env)) ⟨rfl, rfl, rfl⟩ ?_ ?_ ?_ ?_
  · rintro s x ⟨h1, h2, h3⟩
    exact ⟨(hk s).1.trans h1, (hk s).2.1.trans h2, (hk s).2.2.trans h3⟩
  · rintro s ⟨h1, h2, h3⟩
    exact ⟨h1, h2, h3⟩
  · rintro ⟨t, t0, t1, th, v0, v1, v, vd, i, d, h, ⟨⟩⟩ ⟨h1, h2, h3⟩
    simp only at h1 h2 h3
    subst h1 h2 h3
    show EnvSt.norm _ (reset env _) = EnvSt.norm _ (reset env _)
    simp [EnvSt.norm, reset, next, EnvSt.segment, EnvSt.nextInterval]
  · intro s t x h
    have h' : EnvSt.norm (next rnd env) s = EnvSt.norm (next rnd env) t := h
    show EnvSt.norm (next rnd env) (envTick (fun _ => next rnd env) s x).1 = EnvSt.norm (next rnd env) (envTick (fun _ => next rnd env) t x).1
      ∧ (envTick (fun _ => next rnd env) s x).2 = (envTick (fun _ => next rnd env) t x).2
    unfold envTick
    simp only
    rw [h']
    exact ⟨rfl, rfl⟩

/-- **C19** for `envelope` and `lfo`: after any schedule, `reset` makes it play as when new. -/
theorem C19_envelope {o : Nat} (rnd : BitVec 64 → ℝ) (hr : ∀ h, 0 ≤ rnd h ∧ rnd h ≤ 1) (env : ℝ → Frame ℝ o) (interval sr : ℝ) (hash : BitVec 64)
    (hsr : 0 < sr) (h : 1 / sr ≤ 0.75 * interval) : ResetFresh (envelope rnd env) (newSt env interval sr hash) :=
  TickFresh.resetFresh (envelope_tickFresh rnd env interval sr hash)
    (fun w cs hc => C54_block_equals_tick_partial rnd hr env w cs hc _ (C54_new env interval sr hash hsr h))

/-- Resets of an envelope with inputs whose control function keeps no state start it anew, sample by sample. -/
theorem envelopeIn_tickFresh {i o : Nat} (rnd : BitVec 64 → ℝ) (env : ℝ → Frame ℝ i → Frame ℝ o) (interval sr : ℝ) (hash : BitVec 64) :
    TickFresh (envelopeIn rnd (fun (_ : Unit) t x => ((), env t x))) (newInSt interval sr hash ()) := by
  have hk : ∀ (s : EnvSt o Unit) (x : Frame ℝ i), (s.norm (nextIn rnd (fun (_ : Unit) t x => ((), env t x)) x)).hash = s.hash
      ∧ (s.norm (nextIn rnd (fun (_ : Unit) t x => ((), env t x)) x)).interval = s.interval
      ∧ (s.norm (nextIn rnd (fun (_ : Unit) t x => ((), env t x)) x)).dt = s.dt := by
    intro s x
    unfold EnvSt.norm
    split
    · unfold nextIn
      split <;> exact ⟨rfl, rfl, rfl⟩
    · exact ⟨rfl, rfl, rfl⟩
  refine tickFresh_of_rel (n := envelopeIn rnd (fun (_ : Unit) t x => ((), env t x))) (fun s : EnvSt o Unit => s.hash = hash ∧ s.interval = interval ∧ s.dt = 1 / sr)
    (fun s t : EnvSt o Unit => ∀ x, s.norm (nextIn rnd (fun (_ : Unit) t x => ((), env t x)) x) = t.norm (nextIn rnd (fun (_ : Unit) t x => ((), env t x)) x))
    ⟨rfl, rfl, rfl⟩ ?_ ?_ ?_ ?_
  · rintro s x ⟨h1, h2, h3⟩
    exact ⟨(hk s x).1.trans h1, (hk s x).2.1.trans h2, (hk s x).2.2.trans h3⟩
  · rintro s ⟨h1, h2, h3⟩
    exact ⟨h1, h2, h3⟩
  · rintro ⟨t, t0, t1, th, v0, v1, v, vd, i, d, h, ⟨⟩⟩ ⟨h1, h2, h3⟩ x
    simp only at h1 h2 h3
    subst h1 h2 h3
    show EnvSt.norm _ (resetIn _) = EnvSt.norm _ (resetIn _)
    simp [EnvSt.norm, resetIn, nextIn, EnvSt.segment, EnvSt.nextInterval]
  · intro s t x h
    have h' := h x
    show (∀ y, EnvSt.norm _ (envTick (nextIn rnd (fun (_ : Unit) t x => ((), env t x))) s x).1 = EnvSt.norm _ (envTick (nextIn rnd (fun (_ : Unit) t x => ((), env t x))) t x).1)
      ∧ (envTick (nextIn rnd (fun (_ : Unit) t x => ((), env t x))) s x).2 = (envTick (nextIn rnd (fun (_ : Unit) t x => ((), env t x))) t x).2
    unfold envTick
    simp only
    rw [h']
    exact ⟨fun _ => rfl, rfl⟩

/-- **C19** for `envelope2`, `envelope3`, `envelope_in` and their `lfo` versions with control functions that keep no state. -/
theorem C19_envelope_in {i o : Nat} (rnd : BitVec 64 → ℝ) (hr : ∀ h, 0 ≤ rnd h ∧ rnd h ≤ 1) (env : ℝ → Frame ℝ i → Frame ℝ o) (interval sr : ℝ) (hash : BitVec 64)
    (hsr : 0 < sr) (h : 1 / sr ≤ 0.75 * interval) : ResetFresh (envelopeIn rnd (fun (_ : Unit) t x => ((), env t x))) (newInSt interval sr hash ()) :=
  TickFresh.resetFresh (envelopeIn_tickFresh rnd env interval sr hash)
    (fun w cs hc => C54_block_equals_tick_in_partial rnd hr _ w cs hc _ (C54_new_in interval sr hash () hsr h))

example (env : ℝ → Frame ℝ 1) : ResetFresh (envelope (fun _ => 1 / 2) env) (newSt env 0.002 44100 7) :=
  C19_envelope _ (fun _ => by norm_num) env 0.002 44100 7 (by norm_num) (by norm_num)

example (env : ℝ → Frame ℝ 1 → Frame ℝ 1) : ResetFresh (envelopeIn (fun _ => 1 / 2) (fun (_ : Unit) t x => ((), env t x))) (newInSt 0.002 44100 7 ()) :=
  C19_envelope_in _ (fun _ => by norm_num) env 0.002 44100 7 (by norm_num) (by norm_num)

end Fundsp.Env
