import Verif.Core.Node
import Mathlib.Analysis.SpecialFunctions.Complex.Circle
import Mathlib.Analysis.SpecialFunctions.Trigonometric.Basic

/-!
# Frequency domain resynthesis: model

Model of `Resynth` and `FftWindow` (`/repo/src/resynth.rs`) with the helpers of `/repo/src/fft.rs`, over the real and complex numbers. The transforms of the `microfft` crate are
the discrete Fourier transform and its inverse. Vectors are functions of the index. The processing function is arbitrary and has a state of its own of type `P`; it sees the number of samples
processed (from which `time` and `time_at` are computed) and the input bins, and sets output bins starting from zero. The sample rate is a constant it may use.
-/

noncomputable section
namespace Fundsp.Rsy

/-- `e ^ (2 π i x)`. -/
def cis (x : ℝ) : ℂ := Complex.exp ((2 * Real.pi * x : ℝ) * Complex.I)

/-- Discrete Fourier transform of `N` real samples. -/
def dft (N : Nat) (x : Nat → ℝ) (k : Nat) : ℂ := ∑ n ∈ Finset.range N, (x n : ℂ) * cis (-((k : ℝ) * n / N))

/-- Inverse discrete Fourier transform. -/
def idft (N : Nat) (a : Nat → ℂ) (n : Nat) : ℂ := (∑ k ∈ Finset.range N, a k * cis ((k : ℝ) * n / N)) / N

/-- `real_fft`: `fft.rs:6-30`, on the first `N` numbers. Complex bins alternate real and imaginary parts; the Nyquist bin is packed into the imaginary part of the first. -/
def realFft (N : Nat) (x : Nat → ℝ) : Nat → ℝ := fun j =>
  if j = 1 then (dft N x (N / 2)).re
  else if j < N then (if j % 2 = 0 then (dft N x (j / 2)).re else (dft N x (j / 2)).im)
  else x j

/-- `fix_nyquist`: `fft.rs:33-38`, for a vector of length `N + 2`. -/
def fixNyquist (N : Nat) (x : Nat → ℝ) : Nat → ℝ := fun j =>
  if j = 1 then 0 else if j = N + 1 then 0 else if j = N then x 1 else x j

/-- `fix_negative`: `fft.rs:41-46`. The bins read are not among those written. -/
def fixNegative (N : Nat) (a : Nat → ℂ) : Nat → ℂ := fun i => if N / 2 + 1 ≤ i ∧ i < N then (starRingEnd ℂ) (a (N - i)) else a i

variable {P : Type} {i o : Nat}

/-- `FftWindow`: `resynth.rs:22-36`, without the length and sample rate. -/
structure Win (i o : Nat) where
  input : Fin i → Nat → ℝ
  output : Fin o → Nat → ℂ
  index : Nat
  samples : Nat

/-- `at`: `resynth.rs:134-136`. -/
def Win.at' (v : Win i o) (c : Fin i) (k : Nat) : ℂ := ⟨v.input c (k * 2), v.input c (k * 2 + 1)⟩

/-- `new`: `resynth.rs:158-167`. -/
def Win.new (index : Nat) : Win i o := ⟨fun _ _ => 0, fun _ _ => 0, index, 0⟩

/-- `write`: `resynth.rs:176-180`. -/
def Win.write (v : Win i o) (x : Frame ℝ i) (value : ℝ) : Win i o :=
  { v with input := fun c n => if n = v.index then x c * value else v.input c n }

/-- `read`: `resynth.rs:184-186`. -/
def Win.read (v : Win i o) (value : ℝ) : Frame ℝ o := fun c => (v.output c v.index).re * value

/-- `reset`: `resynth.rs:202-211`. -/
def Win.reset (_ : Win i o) (index : Nat) : Win i o := ⟨fun _ _ => 0, fun _ _ => 0, index, 0⟩

/-- `advance`: `resynth.rs:215-218`. -/
def Win.advance (N : Nat) (v : Win i o) : Win i o := { v with samples := v.samples + 1, index := (v.index + 1) &&& (N - 1) }

/-- `is_fft_time`: `resynth.rs:222-224`. -/
def Win.isFftTime (N : Nat) (v : Win i o) : Bool := v.index == 0 && N ≤ v.samples

/-- The processing function: own state, samples processed, input bins; new state and output bins. -/
abbrev Proc (P : Type) (i o : Nat) := P → Nat → (Fin i → Nat → ℂ) → P × (Fin o → Nat → ℂ)

/-- `Resynth`: `resynth.rs:231-253`. -/
structure St (P : Type) (i o : Nat) where
  window : Fin 4 → Win i o
  samples : Nat
  proc : P

/-- The window function: `resynth.rs:278-284`. -/
def hann (N n : Nat) : ℝ := 0.5 + 0.5 * Real.cos (((n : ℝ) - (N / 2 : Nat)) * (2 * Real.pi) / N)

/-- Transform, process and transform back one window: `resynth.rs:355-371`. The processing function may only look at bins up to the Nyquist bin; other arguments of `at` panic or are not bins. -/
def runWin (N : Nat) (f : Proc P i o) (p : P) (v : Win i o) : P × Win i o :=
  let v := { v with input := fun c => fixNyquist N (realFft N (v.input c)) }
  let r := f p v.samples (fun c k => if k ≤ N / 2 then v.at' c k else 0)
  (r.1, { v with output := fun c => idft N (fixNegative N (r.2 c)) })

/-- The loop over windows: `resynth.rs:353-373`. -/
def runAll (N : Nat) (f : Proc P i o) (s : St P i o) : St P i o :=
  (List.finRange 4).foldl (fun s j =>
    if (s.window j).isFftTime N then
      let r := runWin N f s.proc (s.window j)
      { s with window := Function.update s.window j r.2, proc := r.1 }
    else s) s

/-- `tick`: `resynth.rs:339-376`. -/
def tick (N : Nat) (f : Proc P i o) (s : St P i o) (x : Frame ℝ i) : St P i o × Frame ℝ o :=
  let out : Frame ℝ o := fun c => ∑ j : Fin 4, ((s.window j).write x (hann N (s.window j).index)).read (hann N (s.window j).index * (2 / 3)) c
  let s1 : St P i o := { s with window := fun j => ((s.window j).write x (hann N (s.window j).index)).advance N, samples := s.samples + 1 }
  (if s1.samples &&& (N / 4 - 1) = 0 then runAll N f s1 else s1, out)

/-- `reset`: `resynth.rs:332-337`. The state of the processing function is kept. -/
def reset (N : Nat) (s : St P i o) : St P i o := ⟨fun j => (s.window j).reset (j * (N / 4)), 0, s.proc⟩

/-- `new`: `resynth.rs:273-313`, for window length `N` and processing function state `p`. -/
def new (N : Nat) (p : P) : St P i o :=
  ⟨fun j => Win.new (match j with | 0 => 0 | 1 => N / 4 | 2 => N / 2 | 3 => N / 2 + N / 4), 0, p⟩

/-- The node. Blocks are processed sample by sample. -/
def resynth (N : Nat) (f : Proc P i o) : Node ℝ i o := Node.ofTick (St P i o) (reset N) (tick N f)

end Fundsp.Rsy
