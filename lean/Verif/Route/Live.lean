import Verif.Route.Sound
import Verif.Filter.Response2
import Verif.Filter.SvfIn
import Verif.Param.Model
import Verif.Dyn.Model

/-! Units together with their `route` function in a given state: what a unit answers when it is asked for its response in the middle of its life, after
settings, changes of the sample rate and sound. The units and their settings are those of `Verif.Param.Model`; the routes are those of `/repo/src/filter.rs`,
`biquad.rs`, `svf.rs`, `follow.rs`, `pan.rs` and `dynamics.rs`. Numbers are real. -/

noncomputable section
namespace Fundsp.Route
open Fundsp.Filter Fundsp.Param

/-- A unit with its settings and its `route(&mut self, input, frequency)`. -/
structure RComp (n o : Nat) extends Comp n o where
  route : σ → ℝ → SFrame → SFrame

/-- Phase step of `frequency` at `sample_rate`: `frequency * f64::TAU / self.sample_rate`. -/
def phaseStep (frequency sr : ℝ) : ℝ := frequency * (2 * Real.pi) / sr

/-- The pattern `output.set(0, input.at(0).filter(0.0, |r| r * H))`. -/
def filterBy (H : ℂ) (input : SFrame) : SFrame := [(input.at 0).filter 0 (fun r => r * H)]

/-- `Lowpole::route`: `filter.rs:82-94`. -/
def lowpoleR (n : Nat) : RComp (n + 1) 1 where
  toComp := lowpoleComp n
  route := fun (s : LowpoleFull) f input => filterBy (lowpoleResponse s.base.coeff (phaseStep f s.sr)) input

/-- `DCBlock::route`: `filter.rs:159-171`. -/
def dcR : RComp 1 1 where
  toComp := dcComp
  route := fun (s : DcFull) f input => filterBy (dcblockResponse s.base.coeff (phaseStep f s.sr)) input

/-- `Highpole::route`: `filter.rs:418-430`. -/
def highpoleR (n : Nat) : RComp (n + 1) 1 where
  toComp := highpoleComp n
  route := fun (s : HighpoleFull) f input => filterBy (highpoleResponse s.base.coeff (phaseStep f s.sr)) input

/-- A unit that remembers the sample rate only for its response: `Allpole`, `filter.rs:309-311`; `Biquad`, `biquad.rs:179-181`. -/
def withRate {n o : Nat} (C : Comp n o) : Comp n o where
  σ := C.σ × ℝ
  set s p := (C.set s.1 p, s.2)
  rate s sr := (C.rate s.1 sr, sr)
  tick s x := let r := C.tick s.1 x; ((r.1, s.2), r.2)

/-- `Allpole::route`: `filter.rs:331-343`. -/
def allpoleR (n : Nat) : RComp (n + 1) 1 where
  toComp := withRate (allpoleComp n)
  route := fun (s : PoleZero ℝ × ℝ) f input => filterBy (allpoleResponse s.1.coeff (phaseStep f s.2)) input

/-- `Biquad::route`: `biquad.rs:208-217`. -/
def biquadR : RComp 1 1 where
  toComp := withRate biquadComp
  route := fun (s : BiquadFull × ℝ) f input => filterBy (biquadResponse s.1.coefs (phaseStep f s.2)) input

/-- `ButterLowpass::route`: `biquad.rs:286-298`. -/
def butterR (n : Nat) : RComp (n + 1) 1 where
  toComp := butterComp n
  route := fun (s : ButterFull) f input => filterBy (biquadResponse s.biquad.coefs (phaseStep f s.sr)) input

/-- `Resonator::route`: `biquad.rs:369-381`. -/
def resonatorR (n : Nat) : RComp (n + 1) 1 where
  toComp := resonatorComp n
  route := fun (s : ResonatorFull) f input => filterBy (biquadResponse s.biquad.coefs (phaseStep f s.sr)) input

/-- `Follow::route`: `follow.rs:117-130`. -/
def followR : RComp 1 1 where
  toComp := followComp
  route := fun (s : FollowFull) f input => filterBy (followResponse s.base.coeff (phaseStep f s.sr)) input

open Classical in
/-- `AFollow::route`: `follow.rs:253-271`. -/
def afollowR : RComp 1 1 where
  toComp := afollowComp
  route := fun (s : AFollowFull) f input =>
    if s.base.acoeff = s.base.rcoeff then filterBy (followResponse s.base.acoeff (phaseStep f s.sr)) input
    else [(input.at 0).distort 0]

/-- `Panner::route`: `pan.rs:84-90`. -/
def panRoute (s : Pan.PanSt) (input : SFrame) : SFrame := [(input.at 0).scale s.left, (input.at 0).scale s.right]
def panR1 : RComp 1 2 where
  toComp := panComp1
  route := fun (s : Pan.PanSt) _ input => panRoute s input
def panR2 : RComp 2 2 where
  toComp := panComp2
  route := fun (s : Pan.PanSt) _ input => panRoute s input

/-- `Constant::route`: `audionode.rs:489-495`. -/
def constR (n : Nat) : RComp 0 n where
  toComp := constComp n
  route := fun (s : Frame ℝ n) _ _ => chans n (fun c => if h : c < n then .value (s ⟨c, h⟩) else .unknown)

/-! ## State variable filters -/

/-- `SvfMode::response`: `svf.rs:316-324` and the like for the other modes. -/
def svfResponse (m : SvfMode) (p : SvfParams) (θ : ℝ) : ℂ :=
  let t := Real.tan (Real.pi * p.cutoff / p.sr)
  let a := √p.gain
  match m with
  | .lowpass => lowpassResponse t p.q θ
  | .highpass => highpassResponse t p.q θ
  | .bandpass => bandpassResponse t p.q θ
  | .notch => notchResponse t p.q θ
  | .peak => peakResponse t p.q θ
  | .allpass => allpassResponse t p.q θ
  | .bell => bellResponse t p.q a θ
  | .lowshelf => lowshelfResponse t p.q a √a θ
  | .highshelf => highshelfResponse t p.q a √a θ

/-- `FixedSvf::set`, `svf.rs:1025-1036`, in terms of the methods of the filter. -/
def fixedSvfSet (m : SvfMode) (s : FixedSt) : Par → FixedSt
  | .center c => s.set m (.center c)
  | .centerQ c q => s.set m (.centerQ c q)
  | .centerQGain c q a => s.set m (.centerQGain c q a)
  | _ => s

/-- `FixedSvf`: `svf.rs:992-1047`. -/
def fixedSvfR (m : SvfMode) : RComp 1 1 where
  σ := FixedSt
  set := fixedSvfSet m
  rate s sr := s.set m (.sampleRate sr)
  tick := FixedSt.tick
  route := fun (s : FixedSt) f input => filterBy (svfResponse m s.p (phaseStep f s.p.sr)) input

/-- `Svf`: `svf.rs:811-871`. The setting it understands, the update period, is not among `Par`. -/
def svfR (m : SvfMode) : RComp m.arity 1 where
  σ := SvfSt
  set s _ := s
  rate s sr := s.setSampleRate m sr
  tick := SvfSt.tick m
  route := fun (s : SvfSt) f input => filterBy (svfResponse m s.p (phaseStep f s.p.sr)) input

/-! ## Units without settings -/

/-- `Mixer::route`: `pan.rs:133-151`. -/
def Rt.mixer (m n : Nat) (M : Frame (Frame ℝ (m + 1)) n) : Rt (Pan.mixer (m + 1) n) :=
  ⟨fun s => s = M, fun input => chans n (fun i => if h : i < n then
    Fin.foldl m (fun acc j => acc.combineLinear ((input.at (j.1 + 1)).scale (M ⟨i, h⟩ j.succ)) 0 (· + ·) (· + ·)) ((input.at 0).scale (M ⟨i, h⟩ 0))
    else .unknown)⟩

/-- `Declick::route`: `dynamics.rs:309-312`. -/
def Rt.declick : Rt Dyn.declick := ⟨fun s : Dyn.DecSt => 0 < s.sampleDuration, fun input => input⟩

/-- `Monitor::route`: `dynamics.rs:505-507`. -/
def Rt.monitor (m : Dyn.Meter) : Rt (Dyn.monitor m) := ⟨fun _ => True, fun input => input⟩

/-- `MeterNode::route`: `dynamics.rs:432-436`. -/
def Rt.meter (m : Dyn.Meter) : Rt (Dyn.meterNode m) := ⟨fun _ => True, fun input => [(input.at 0).distort 0]⟩

/-- `Limiter::route`: `dynamics.rs:223-230`, for a limiter of `n` channels with lookahead of `length` samples. -/
def limRoute (n length : Nat) (input : SFrame) : SFrame := chans n (fun i => (input.at i).delay length)

end Fundsp.Route
