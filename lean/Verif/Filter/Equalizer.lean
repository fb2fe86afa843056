import Verif.Filter.SvfIn
import Verif.Core.Combinators
import Verif.Math.Music
import Verif.Setting.Model

/-! The parametric equalizer of `/repo/README.md:989-1048`: a chain of bell filters (`pipei` of `bell_hz`), its bands accessed by `node_mut`, by settings with an index,
and its reported frequency response. `/repo/src/audionode.rs:2340-2452`, `/repo/src/svf.rs:874-1047`, `/repo/src/audiounit.rs:194-220`. Real arithmetic. -/

noncomputable section
namespace Fundsp.Equalizer
open Fundsp Fundsp.Filter Fundsp.Setting

/-- The chain of `n + 1` bands. The state of a band holds its parameters, its coefficients and its memory. -/
def equalizer (n : Nat) : Node ℝ 1 1 := chain n fixedSvf

/-- State of the chain. -/
abbrev St (n : Nat) := Fin (n + 1) → FixedSt

/-- `pipei::<U12, _, _>(|i| bell_hz(f, q, gain))` with the parameters of band `i` given by `p`: `prelude.rs:1618-1626`, `2397-2407`. -/
def make (n : Nat) (p : Nat → SvfParams) : St n := fun i => FixedSt.new .bell (p i)

/-- `Parameter`: `setting.rs:16-53`, the variants that a fixed filter looks at. -/
inductive Par
  | center (c : ℝ)
  | centerQ (c q : ℝ)
  | centerQGain (c q gain : ℝ)
  | other

/-- `FixedSvf::set`: `svf.rs:1025-1036`. It does not look at the address. -/
def setBand (s : FixedSt) : Par → FixedSt
  | .center c => FixedSt.set .bell s (.center c)
  | .centerQ c q => FixedSt.set .bell s (.centerQ c q)
  | .centerQGain c q g => FixedSt.set .bell s (.centerQGain c q g)
  | .other => s

/-- What a user can do with an equalizer. -/
inductive Ev
  /-- One of the methods of the filter on `equalizer.node_mut(i)`. -/
  | band (i : Nat) (f : FixedSet)
  /-- A setting. -/
  | set (path : List Addr) (p : Par)
  | rate (sr : ℝ)
  | reset
  | tick (x : ℝ)

/-- Replaces one band; a missing band is an index out of range, which panics (`none`). -/
def update {n : Nat} (s : St n) (i : Nat) (f : FixedSt → FixedSt) : Option (St n) :=
  if i < n + 1 then some (fun j => if j.1 = i then f (s j) else s j) else none

/-- One call. `node_mut`: `audionode.rs:2369-2373`; `set`: `audionode.rs:2426-2430`; `set_sample_rate`: `audionode.rs:2394-2398`; `reset`: `2390-2392`. -/
def step {n : Nat} (s : St n) : Ev → Option (St n × List ℝ)
  | .band i f => (update s i fun b => FixedSt.set .bell b f).map (·, [])
  | .set path p => match path with
    | .index i :: _ => (update s i fun b => setBand b p).map (·, [])
    | _ => some (s, [])
  | .rate sr => some (fun j => FixedSt.set .bell (s j) (.sampleRate sr), [])
  | .reset => some ((equalizer n).reset s, [])
  | .tick x => some (((equalizer n).tick s (fun _ => x)).1, [((equalizer n).tick s (fun _ => x)).2 0])

/-- A sequence of calls; the samples that came out. -/
def run {n : Nat} (s : St n) : List Ev → Option (St n × List ℝ)
  | [] => some (s, [])
  | e :: es => (step s e).bind fun r => (run r.1 es).map fun q => (q.1, r.2 ++ q.2)

/-- `BellMode::response` through `FixedSvf::route`: `svf.rs:613-622`, `1037-1046`. The response is computed from the parameters, not from the coefficients. -/
def bandResponse (p : SvfParams) (f : ℝ) : ℂ :=
  bellResponse (Real.tan (Real.pi * p.cutoff / p.sr)) p.q √p.gain (f * (2 * Real.pi) / p.sr)

/-- `response(0, f)`: `audiounit.rs:194-205` with `Chain::route`, `audionode.rs:2446-2452`: each band multiplies the incoming response, starting from 1. -/
def response {n : Nat} (s : St n) (f : ℝ) : ℂ := (List.ofFn s).foldl (fun r b => r * bandResponse b.p f) 1

/-- `response_db(0, f)`: `audiounit.rs:217-220`. -/
def responseDb {n : Nat} (s : St n) (f : ℝ) : ℝ := Math.ampDb ‖response s f‖

end Fundsp.Equalizer
