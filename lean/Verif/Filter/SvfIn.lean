import Verif.Filter.SvfResponse
import Verif.Filter.Stable
import Verif.Core.ResetProps
import Verif.Core.Simd
/-! State variable filters with parameter inputs (`Svf`), the settable fixed filter (`FixedSvf`) and `Morph`: `/repo/src/svf.rs:219-1127`.
Real arithmetic; `F::from_f32`/`convert` are identities. The latch `period`/`counter` are `u32`; the counter never exceeds the period. -/

namespace Fundsp.Filter

/-- `SvfParams`: `svf.rs:266-273`. -/
structure SvfParams where
  sr : ℝ
  cutoff : ℝ
  q : ℝ
  gain : ℝ

/-- The nine modes: `svf.rs:275-745`. -/
inductive SvfMode
  | lowpass | highpass | bandpass | notch | peak | allpass | bell | lowshelf | highshelf
  deriving DecidableEq

namespace SvfMode

/-- Modes whose `Inputs` is `U4`: `svf.rs:588-745`. -/
def usesGain : SvfMode → Bool
  | bell | lowshelf | highshelf => true
  | _ => false

/-- `type Inputs` of the mode, audio included. -/
def arity (m : SvfMode) : Nat := if m.usesGain then 4 else 3

/-- `SvfMode::update`: `svf.rs:294-297` and the like, with `SvfCoefs::lowpass` ...: `svf.rs:29-226`. -/
noncomputable def coefs (m : SvfMode) (p : SvfParams) : SvfCoefs ℝ :=
  let t := Real.tan (Real.pi * p.cutoff / p.sr)
  let a := √p.gain
  match m with
  | lowpass => svfLowpass t p.q
  | highpass => svfHighpass t p.q
  | bandpass => svfBandpass t p.q
  | notch => svfNotch t p.q
  | peak => svfPeak t p.q
  | allpass => svfAllpass t p.q
  | bell => svfBell t p.q a
  | lowshelf => svfLowshelf t p.q a √a
  | highshelf => svfHighshelf t p.q a √a

end SvfMode

/-- Input channel `i`, if there is one. -/
def Frame.rd {n : Nat} (x : Frame ℝ n) (i : Nat) : ℝ := if h : i < n then x ⟨i, h⟩ else 0

/-- `Svf`: `svf.rs:749-762`. -/
structure SvfSt where
  p : SvfParams
  coefs : SvfCoefs ℝ
  ic : ℝ × ℝ
  period : Nat
  counter : Nat

namespace SvfSt

/-- `Svf::new`: `svf.rs:770-785`. -/
noncomputable def new (m : SvfMode) (p : SvfParams) : SvfSt := ⟨p, m.coefs p, (0, 0), 1, 0⟩

/-- `reset`: `svf.rs:822-826`. -/
def reset (s : SvfSt) : SvfSt := { s with ic := (0, 0), counter := 0 }

/-- `set_sample_rate`: `svf.rs:828-831`; `update_frequency` is `update` in every mode. -/
noncomputable def setSampleRate (m : SvfMode) (s : SvfSt) (sr : ℝ) : SvfSt :=
  { s with p := { s.p with sr := sr }, coefs := m.coefs { s.p with sr := sr } }

/-- `set` with `Parameter::Subsample`: `svf.rs:855-860`; other settings are ignored. -/
def setSubsample (s : SvfSt) (period : Nat) : SvfSt := { s with period := max 1 period, counter := 0 }

open Classical in
/-- `update_inputs`: `svf.rs:298-314` (three inputs), `svf.rs:649-666` (four inputs). -/
noncomputable def updateInputs (m : SvfMode) (s : SvfSt) (x : Frame ℝ m.arity) : SvfSt :=
  if m.usesGain then
    if Frame.rd x 1 ≠ s.p.cutoff ∨ Frame.rd x 2 ≠ s.p.q ∨ Frame.rd x 3 ≠ s.p.gain then
      { s with p := ⟨s.p.sr, Frame.rd x 1, Frame.rd x 2, Frame.rd x 3⟩, coefs := m.coefs ⟨s.p.sr, Frame.rd x 1, Frame.rd x 2, Frame.rd x 3⟩ }
    else s
  else
    if Frame.rd x 1 ≠ s.p.cutoff ∨ Frame.rd x 2 ≠ s.p.q then
      { s with p := ⟨s.p.sr, Frame.rd x 1, Frame.rd x 2, s.p.gain⟩, coefs := m.coefs ⟨s.p.sr, Frame.rd x 1, Frame.rd x 2, s.p.gain⟩ }
    else s

/-- The first lines of `tick`: `svf.rs:837-843`. -/
noncomputable def latch (m : SvfMode) (s : SvfSt) (x : Frame ℝ m.arity) : SvfSt :=
  if s.counter + 1 ≥ s.period then updateInputs m { s with counter := 0 } x else { s with counter := s.counter + 1 }

/-- `tick`: `svf.rs:836-853`. -/
noncomputable def tick (m : SvfMode) (s : SvfSt) (x : Frame ℝ m.arity) : SvfSt × Frame ℝ 1 :=
  let t := s.latch m x
  let r := svfTick t.coefs t.ic (Frame.rd x 0)
  ({ t with ic := r.1 }, fun _ => r.2)

end SvfSt

/-- `Svf`: `svf.rs:811-871`; `process` is the default one. -/
noncomputable def svfIn (m : SvfMode) : Node ℝ m.arity 1 := .ofTick SvfSt SvfSt.reset (SvfSt.tick m)

/-! ## Fixed filter with settings -/

/-- `FixedSvf`: `svf.rs:876-887`. -/
structure FixedSt where
  p : SvfParams
  coefs : SvfCoefs ℝ
  ic : ℝ × ℝ

/-- The ways to change a fixed filter: `Parameter::Center`, `CenterQ`, `CenterQGain` (`svf.rs:1025-1036`), the methods `set_q`, `set_gain`
(`svf.rs:962-974`) and `set_sample_rate` (`svf.rs:1005-1008`). -/
inductive FixedSet
  | center (c : ℝ)
  | centerQ (c q : ℝ)
  | centerQGain (c q gain : ℝ)
  | q (q : ℝ)
  | gain (gain : ℝ)
  | sampleRate (sr : ℝ)

namespace FixedSt

/-- `FixedSvf::new`: `svf.rs:894-906`. -/
noncomputable def new (m : SvfMode) (p : SvfParams) : FixedSt := ⟨p, m.coefs p, (0, 0)⟩

/-- `update_gain`: `svf.rs:248-252`. The default method has an empty body and no mode overrides it. -/
def updateGain (_m : SvfMode) (_p : SvfParams) (c : SvfCoefs ℝ) : SvfCoefs ℝ := c

/-- `FixedSvf::set` and the setter methods: `svf.rs:935-990`, `1005-1008`, `1025-1036`. -/
noncomputable def set (m : SvfMode) (s : FixedSt) : FixedSet → FixedSt
  | .center c => let p := { s.p with cutoff := c }; { s with p := p, coefs := m.coefs p }
  | .centerQ c q => let p := { s.p with cutoff := c, q := q }; { s with p := p, coefs := m.coefs p }
  | .centerQGain c q a => let p := { s.p with cutoff := c, q := q, gain := a }; { s with p := p, coefs := m.coefs p }
  | .q q => let p := { s.p with q := q }; { s with p := p, coefs := m.coefs p }
  | .gain a => let p := { s.p with gain := a }; { s with p := p, coefs := updateGain m p s.coefs }
  | .sampleRate sr => let p := { s.p with sr := sr }; { s with p := p, coefs := m.coefs p }

/-- `tick`: `svf.rs:1010-1023`. -/
noncomputable def tick (s : FixedSt) (x : Frame ℝ 1) : FixedSt × Frame ℝ 1 :=
  let r := svfTick s.coefs s.ic (x 0)
  ({ s with ic := r.1 }, fun _ => r.2)

end FixedSt

/-- `FixedSvf`: `svf.rs:992-1047`. -/
noncomputable def fixedSvf : Node ℝ 1 1 := .ofTick FixedSt (fun s => { s with ic := (0, 0) }) FixedSt.tick

/-! ## Morph -/

/-- `Morph`: `svf.rs:1056-1059`. -/
structure MorphSt where
  filter : SvfSt
  morph : ℝ

/-- The first three of four inputs: `input[0..3]` and `input.subset(0, 3)`: `svf.rs:1096`, `1101`. -/
def first3 (x : Frame ℝ 4) : Frame ℝ SvfMode.peak.arity := fun i => x ⟨i.1, lt_of_lt_of_le i.2 (by decide)⟩

/-- `Morph::new`: `svf.rs:1062-1077`. -/
noncomputable def MorphSt.new (sr cutoff q morph : ℝ) : MorphSt := ⟨SvfSt.new .peak ⟨sr, cutoff, q, 0⟩, morph⟩

/-- `tick`: `svf.rs:1093-1098`. -/
noncomputable def MorphSt.tick (s : MorphSt) (x : Frame ℝ 4) : MorphSt × Frame ℝ 1 :=
  let r := s.filter.tick .peak (first3 x)
  (⟨r.1, x 3⟩, fun _ => (r.2 0 + x 3 * x 0) * 0.5)

/-- `Morph`: `svf.rs:1080-1127`. `process` (`1100-1112`) runs the filter and then mixes whole items. -/
noncomputable def morph : Node ℝ 4 1 where
  σ := MorphSt
  reset s := { s with filter := s.filter.reset }
  tick := MorphSt.tick
  process g s size inp out :=
    let r := (svfIn .peak).process g s.filter size (fun c k => inp ⟨c.1, lt_of_lt_of_le c.2 (by decide)⟩ k) out
    (⟨r.1, if size > 0 then inp 3 (size - 1) else s.morph⟩,
      setItems size (fun c k => (r.2 c k + inp 0 k * inp 3 k) * 0.5) r.2)

/-- The response computed by `Morph::route` from the response `r` of the incoming signal: `svf.rs:1114-1122`. -/
noncomputable def morphRoute (s : MorphSt) (θ : ℝ) (r : ℂ) : ℂ :=
  (r * peakResponse (Real.tan (Real.pi * s.filter.p.cutoff / s.filter.p.sr)) s.filter.p.q θ + s.morph) * 0.5

end Fundsp.Filter
