import Verif.Resynth.Model

/-!
# What the window tells the processing function: model

Model of the methods of `FftWindow` (`/repo/src/resynth.rs`) that tell times and frequencies, over the real numbers. `N` is the window length, `sr` the sample rate, `samples` the
number of samples the window has processed. The `u64` subtractions are those of natural numbers, which stop at zero; it is shown that they do not get there.
-/

noncomputable section
namespace Fundsp.Rsy

/-- `latency`: `resynth.rs:60-62`. -/
def latency (N : Nat) (sr : ℝ) : ℝ := N / sr

/-- `time`: `resynth.rs:71-73`. -/
def time (N : Nat) (sr : ℝ) (samples : Nat) : ℝ := ((samples - N >>> 1 : ℕ) : ℝ) / sr

/-- `time_at`: `resynth.rs:82-84`. -/
def timeAt (N : Nat) (sr : ℝ) (samples : Nat) (i : Nat) : ℝ := ((samples - N + i : ℕ) : ℝ) / sr

/-- `windows_per_second`: `resynth.rs:89-91`. -/
def windowsPerSecond (N : Nat) (sr : ℝ) : ℝ := 4 * sr / N

/-- `delta_time`: `resynth.rs:95-97`. -/
def deltaTime (N : Nat) (sr : ℝ) : ℝ := N / (4 * sr)

/-- `bins`: `resynth.rs:121-123`. -/
def bins (N : Nat) : Nat := (N >>> 1) + 1

/-- `frequency`: `resynth.rs:128-130`. -/
def frequency (N : Nat) (sr : ℝ) (i : Nat) : ℝ := sr / N * i

/-- What can be asked from a window. -/
structure Told where
  latency : ℝ
  time : ℝ
  timeAt : Nat → ℝ
  windowsPerSecond : ℝ
  deltaTime : ℝ
  bins : Nat
  frequency : Nat → ℝ

/-- The answers of a window: `resynth.rs:38-130`. -/
def told (N : Nat) (sr : ℝ) (samples : Nat) : Told :=
  ⟨latency N sr, time N sr samples, timeAt N sr samples, windowsPerSecond N sr, deltaTime N sr, bins N, frequency N sr⟩

/-- A processing function that asks the window: it gets the answers and the input bins. -/
def asking {P : Type} {i o : Nat} (N : Nat) (sr : ℝ) (g : P → Told → (Fin i → Nat → ℂ) → P × (Fin o → Nat → ℂ)) : Proc P i o := fun p samples x => g p (told N sr samples) x

end Fundsp.Rsy
