import Verif.Filter.Smooth
import Verif.Filter.Stable
import Verif.Filter.Rez
import Verif.Pan.Model
import Verif.Osc.Model

/-!
# Parameters: constructor, settings and inputs

Units that take a parameter from their constructor, from settings or, in another form of the same unit, from an input: `/repo/src/filter.rs`,
`biquad.rs`, `moog.rs`, `rez.rs`, `pan.rs`, `follow.rs`, `oscillator.rs`, `delay.rs`. The sample rate and the calls that happen between samples are part of the model here.
Numbers are real. The steps of the filters are those of the models of the individual units.
-/

noncomputable section
namespace Fundsp.Param
open Fundsp.Filter

/-- `Parameter`: `setting.rs:16-53`. `other` stands for the variants no unit of this file looks at. -/
inductive Par where
  | center (f : ℝ)
  | centerQ (f q : ℝ)
  | centerQGain (f q gain : ℝ)
  | value (v : ℝ)
  | coefficient (v : ℝ)
  | biquad (a1 a2 b0 b1 b2 : ℝ)
  | delay (d : ℝ)
  | time (t : ℝ)
  | roughness (r : ℝ)
  | pan (v : ℝ)
  | attackRelease (a r : ℝ)
  | other

/-- What may happen to a unit between two samples: `AudioNode::set` and `AudioNode::set_sample_rate`. -/
inductive Ev where
  | set (p : Par)
  | rate (sr : ℝ)

/-- A unit with `n` inputs and `o` outputs, with its settings. -/
structure Comp (n o : Nat) where
  σ : Type
  set : σ → Par → σ
  rate : σ → ℝ → σ
  tick : σ → Frame ℝ n → σ × Frame ℝ o

variable {n o : Nat}

/-- One setting or one change of rate. -/
def Comp.on (C : Comp n o) (s : C.σ) : Ev → C.σ
  | .set p => C.set s p
  | .rate sr => C.rate s sr

/-- State before the events that precede sample `k`. -/
def Comp.st (C : Comp n o) (s : C.σ) (ev : Nat → List Ev) (x : Nat → Frame ℝ n) : Nat → C.σ
  | 0 => s
  | k + 1 => (C.tick ((ev k).foldl C.on (C.st s ev x k)) (x k)).1

/-- Sample `k` of a run in which `ev k` happens before sample `k`. -/
def Comp.out (C : Comp n o) (s : C.σ) (ev : Nat → List Ev) (x : Nat → Frame ℝ n) (k : Nat) : Frame ℝ o :=
  (C.tick ((ev k).foldl C.on (C.st s ev x k)) (x k)).2

/-! ## One-pole filters -/

/-- `Lowpole`: `filter.rs:18-25`. -/
structure LowpoleFull where
  base : LowpoleSt ℝ
  sr : ℝ

/-- `Lowpole::set_cutoff`: `filter.rs:43-46`. -/
def LowpoleFull.setCutoff (s : LowpoleFull) (f : ℝ) : LowpoleFull :=
  { s with base := { s.base with cutoff := f, coeff := poleCoeff s.sr f } }

/-- `Lowpole::new`: `filter.rs:29-39`. -/
def lowpoleNew (f : ℝ) : LowpoleFull := LowpoleFull.setCutoff ⟨⟨0, 0, f⟩, 44100⟩ f

/-- `Lowpole` with `n` parameter inputs: `set_sample_rate` `filter.rs:58-61`, `tick` `filter.rs:64-74`, `set` `filter.rs:76-80`. -/
def lowpoleComp (n : Nat) : Comp (n + 1) 1 where
  σ := LowpoleFull
  set s p := match p with
    | .center f => s.setCutoff f
    | _ => s
  rate s sr := { s with sr := sr }.setCutoff s.base.cutoff
  tick s x := let r := lowpoleTick (poleCoeff s.sr) n s.base x; ({ s with base := r.1 }, r.2)

/-- `DCBlock`: `filter.rs:101-108`. -/
structure DcFull where
  base : PoleZero ℝ
  cutoff : ℝ
  sr : ℝ

/-- `DCBlock::set_cutoff`: `filter.rs:123-126`. -/
def DcFull.setCutoff (s : DcFull) (f : ℝ) : DcFull := { s with cutoff := f, base := { s.base with coeff := dcCoeff s.sr f } }

/-- `DCBlock::set_sample_rate`: `filter.rs:139-142`. -/
def DcFull.setRate (s : DcFull) (sr : ℝ) : DcFull := { s with sr := sr }.setCutoff s.cutoff

/-- `DCBlock::new`: `filter.rs:112-120`. -/
def dcNew (f : ℝ) : DcFull := DcFull.setRate ⟨⟨0, 0, 0⟩, f, 0⟩ 44100

/-- `DCBlock`: `filter.rs:129-158`. -/
def dcComp : Comp 1 1 where
  σ := DcFull
  set s p := match p with
    | .center f => s.setCutoff f
    | _ => s
  rate := DcFull.setRate
  tick s x := let r := dcblockNode.tick s.base x; ({ s with base := r.1 }, r.2)

/-- `Highpole`: `filter.rs:353-360`. -/
structure HighpoleFull where
  base : PoleZero ℝ
  cutoff : ℝ
  sr : ℝ

/-- `Highpole::set_cutoff`: `filter.rs:376-379`. -/
def HighpoleFull.setCutoff (s : HighpoleFull) (f : ℝ) : HighpoleFull :=
  { s with cutoff := f, base := { s.base with coeff := poleCoeff s.sr f } }

/-- `Highpole::new`: `filter.rs:364-375`. -/
def highpoleNew (f : ℝ) : HighpoleFull := HighpoleFull.setCutoff ⟨⟨0, 0, 0⟩, f, 44100⟩ f

/-- The cutoff input of `Highpole::tick`: `filter.rs:399-404`. -/
def HighpoleFull.follow (n : Nat) (s : HighpoleFull) (x : Frame ℝ (n + 1)) : HighpoleFull :=
  if h : 1 < n + 1 then
    let f := x ⟨1, h⟩
    if f ≠ s.cutoff then s.setCutoff f else s
  else s

/-- `Highpole` with `n` parameter inputs: `filter.rs:382-417`. -/
def highpoleComp (n : Nat) : Comp (n + 1) 1 where
  σ := HighpoleFull
  set s p := match p with
    | .center f => s.setCutoff f
    | _ => s
  rate s sr := { s with sr := sr }.setCutoff s.cutoff
  tick s x :=
    let s := s.follow n x
    let r := highpoleNode.tick s.base (fun _ => x 0)
    ({ s with base := r.1 }, r.2)

/-- `Allpole::new`: `filter.rs:279-291`. The assertion `delay > 0` is not modelled. -/
def allpoleNew (d : ℝ) : PoleZero ℝ := ⟨0, 0, allpoleEta d⟩

/-- `Allpole` with `n` parameter inputs: `filter.rs:299-330`. The sample rate matters only to its response. -/
def allpoleComp (n : Nat) : Comp (n + 1) 1 where
  σ := PoleZero ℝ
  set s p := match p with
    | .delay d => { s with coeff := allpoleEta d }
    | _ => s
  rate s _ := s
  tick := allpoleTick n

/-! ## Biquads -/

/-- `Biquad`: `biquad.rs:135-142`. -/
structure BiquadFull where
  base : BiquadSt ℝ
  coefs : BiquadCoefs ℝ

/-- `Biquad::tick`: `biquad.rs:184-194`. -/
def BiquadFull.step (s : BiquadFull) (x0 : ℝ) : BiquadFull × ℝ :=
  let r := biquadTick s.coefs s.base x0
  ({ s with base := r.1 }, r.2)

/-- `Biquad::with_coefs`: `biquad.rs:151-157`. -/
def biquadNew (c : BiquadCoefs ℝ) : BiquadFull := ⟨⟨0, 0, 0, 0⟩, c⟩

/-- `Biquad`: `biquad.rs:167-206`. The sample rate matters only to its response. -/
def biquadComp : Comp 1 1 where
  σ := BiquadFull
  set s p := match p with
    | .biquad a1 a2 b0 b1 b2 => { s with coefs := ⟨a1, a2, b0, b1, b2⟩ }
    | _ => s
  rate s _ := s
  tick s x := let r := s.step (x 0); (r.1, fun _ => r.2)

/-- `ButterLowpass`: `biquad.rs:226-231`. -/
structure ButterFull where
  biquad : BiquadFull
  sr : ℝ
  cutoff : ℝ

/-- `ButterLowpass::set_cutoff`: `biquad.rs:247-251`. -/
def ButterFull.setCutoff (s : ButterFull) (f : ℝ) : ButterFull :=
  { s with biquad := { s.biquad with coefs := butterLowpass s.sr f }, cutoff := f }

/-- `ButterLowpass::new`: `biquad.rs:235-246`. -/
def butterNew (f : ℝ) : ButterFull := ButterFull.setCutoff ⟨biquadNew ⟨0, 0, 0, 0, 0⟩, 44100, 0⟩ f

/-- The cutoff input of `ButterLowpass::tick`: `biquad.rs:271-276`. -/
def ButterFull.follow (n : Nat) (s : ButterFull) (x : Frame ℝ (n + 1)) : ButterFull :=
  if h : 1 < n + 1 then
    let f := x ⟨1, h⟩
    if f ≠ s.cutoff then s.setCutoff f else s
  else s

/-- `ButterLowpass` with `n` parameter inputs: `biquad.rs:254-284`. -/
def butterComp (n : Nat) : Comp (n + 1) 1 where
  σ := ButterFull
  set s p := match p with
    | .center f => s.setCutoff f
    | _ => s
  rate s sr := { s with sr := sr }.setCutoff s.cutoff
  tick s x :=
    let s := s.follow n x
    let r := s.biquad.step (x 0)
    ({ s with biquad := r.1 }, fun _ => r.2)

/-- `Resonator`: `biquad.rs:310-316`. -/
structure ResonatorFull where
  biquad : BiquadFull
  sr : ℝ
  center : ℝ
  q : ℝ

/-- `Resonator::set_center_q`: `biquad.rs:332-337`. -/
def ResonatorFull.setCenterQ (s : ResonatorFull) (f q : ℝ) : ResonatorFull :=
  { s with biquad := { s.biquad with coefs := resonatorCoefs s.sr f q }, center := f, q := q }

/-- `Resonator::new`: `biquad.rs:320-331`. -/
def resonatorNew (f q : ℝ) : ResonatorFull := ResonatorFull.setCenterQ ⟨biquadNew ⟨0, 0, 0, 0, 0⟩, 44100, f, q⟩ f q

/-- The parameter inputs of `Resonator::tick`: `biquad.rs:356-365`. -/
def ResonatorFull.follow (n : Nat) (s : ResonatorFull) (x : Frame ℝ (n + 1)) : ResonatorFull :=
  if h : 3 ≤ n + 1 then
    let f := x ⟨1, by omega⟩
    let q := x ⟨2, by omega⟩
    if f ≠ s.center ∨ q ≠ s.q then s.setCenterQ f q else s
  else s

/-- `Resonator` with `n` parameter inputs: `biquad.rs:340-367`. There is no `set`: settings go to the empty default, `audionode.rs:130-133`. -/
def resonatorComp (n : Nat) : Comp (n + 1) 1 where
  σ := ResonatorFull
  set s _ := s
  rate s sr := { s with sr := sr }.setCenterQ s.center s.q
  tick s x :=
    let s := s.follow n x
    let r := s.biquad.step (x 0)
    ({ s with biquad := r.1 }, fun _ => r.2)

/-! ## Nonlinear filters -/

/-- `Moog`: `moog.rs:17-33`. -/
structure MoogFull where
  base : MoogSt
  cutoff : ℝ
  q : ℝ
  sr : ℝ

/-- `Moog::set_cutoff_q`: `moog.rs:47-57`. -/
def MoogFull.setCutoffQ (s : MoogFull) (f q : ℝ) : MoogFull := { s with base := moogSet s.sr f q s.base, cutoff := f, q := q }

/-- `Moog::new`: `moog.rs:36-43`. -/
def moogNew (f q : ℝ) : MoogFull := MoogFull.setCutoffQ ⟨⟨0, 0, 0, 0, 0, 0, 0, 0, 0, 0, 0⟩, 0, 0, 44100⟩ f q

/-- The parameter inputs of `Moog::tick`: `moog.rs:83-85`. -/
def MoogFull.follow (n : Nat) (s : MoogFull) (x : Frame ℝ (n + 1)) : MoogFull :=
  if h : 3 ≤ n + 1 then s.setCutoffQ (x ⟨1, by omega⟩) (x ⟨2, by omega⟩) else s

/-- `Moog` with `n` parameter inputs, zero or two: `moog.rs:59-111`. -/
def moogComp (n : Nat) : Comp (n + 1) 1 where
  σ := MoogFull
  set s p := match p with
    | .center f => s.setCutoffQ f s.q
    | .centerQ f q => s.setCutoffQ f q
    | _ => s
  rate s sr := { s with sr := sr }.setCutoffQ s.cutoff s.q
  tick s x :=
    let s := s.follow n x
    let r := moogTick s.base (x 0)
    ({ s with base := r.1 }, fun _ => r.2)

/-- `Rez<F, U1>` and `Rez<F, U3>` with their settings: `rez.rs:49-89`. -/
def rezSetting : Par → RezSetting
  | .center f => .center f
  | .centerQ f q => .centerQ f q
  | _ => .other

/-- `Rez` with one input: `rez.rs:49-88`. -/
def rezComp1 : Comp 1 1 where
  σ := RezSt
  set s p := s.set (rezSetting p)
  rate := RezSt.setSampleRate
  tick := rez1.tick

/-- `Rez` with cutoff and Q inputs: `rez.rs:49-88`. -/
def rezComp3 : Comp 3 1 where
  σ := RezSt
  set s p := s.set (rezSetting p)
  rate := RezSt.setSampleRate
  tick := rez3.tick

/-! ## Panner -/

/-- `Panner<U1>`: `pan.rs:49-83`. `set_sample_rate` is the empty default. -/
def panComp1 : Comp 1 2 where
  σ := Pan.PanSt
  set s p := match p with
    | .pan v => Pan.PanSt.ofPan v
    | _ => s
  rate s _ := s
  tick := Pan.panner1.tick

/-- `Panner<U2>`: `pan.rs:49-83`. -/
def panComp2 : Comp 2 2 where
  σ := Pan.PanSt
  set s p := match p with
    | .pan v => Pan.PanSt.ofPan v
    | _ => s
  rate s _ := s
  tick := Pan.panner2.tick

/-! ## Followers -/

/-- `Follow`: `follow.rs:31-43`. -/
structure FollowFull where
  base : FollowSt ℝ
  time : ℝ
  sr : ℝ

/-- `Follow::set_response_time`: `follow.rs:62-68`. -/
def FollowFull.setTime (s : FollowFull) (t : ℝ) : FollowFull :=
  let c := halfwayCoeff (t * s.sr)
  { s with time := t, base := { s.base with coeff := c, coeffNow := if s.base.coeffNow < 1 then c else s.base.coeffNow } }

/-- `Follow::set_sample_rate`: `follow.rs:95-98`. -/
def FollowFull.setRate (s : FollowFull) (sr : ℝ) : FollowFull := { s with sr := sr }.setTime s.time

/-- `Follow::new`: `follow.rs:46-54`, where `reset` makes the current coefficient one. -/
def followNew (t : ℝ) : FollowFull := FollowFull.setRate ⟨followReset ⟨0, 0, 0, 0, 0⟩, t, 0⟩ 44100

/-- `Follow`: `follow.rs:83-117`. -/
def followComp : Comp 1 1 where
  σ := FollowFull
  set s p := match p with
    | .time t => s.setTime t
    | _ => s
  rate := FollowFull.setRate
  tick s x := let r := followTick s.base (x 0); ({ s with base := r.1 }, fun _ => r.2)

/-- `AFollow`: `follow.rs:137-151`. -/
structure AFollowFull where
  base : AFollowSt ℝ
  atime : ℝ
  rtime : ℝ
  sr : ℝ

/-- `AFollow::set_time`: `follow.rs:178-191`. -/
def AFollowFull.setTime (s : AFollowFull) (a r : ℝ) : AFollowFull :=
  let ac := halfwayCoeff (a * s.sr)
  let rc := halfwayCoeff (r * s.sr)
  { s with
    atime := a, rtime := r,
    base := { s.base with
      acoeff := ac, rcoeff := rc,
      acoeffNow := if s.base.acoeffNow < 1 then ac else s.base.acoeffNow,
      rcoeffNow := if s.base.acoeffNow < 1 then rc else s.base.rcoeffNow } }

/-- `AFollow::set_sample_rate`: `follow.rs:217-221`. -/
def AFollowFull.setRate (s : AFollowFull) (sr : ℝ) : AFollowFull := { s with sr := sr }.setTime s.atime s.rtime

/-- `AFollow::new`: `follow.rs:156-165`. -/
def afollowNew (a r : ℝ) : AFollowFull := AFollowFull.setRate ⟨afollowReset ⟨0, 0, 0, 0, 0, 0, 0⟩, a, r, 0⟩ 44100

/-- `AFollow`: `follow.rs:205-252`. -/
def afollowComp : Comp 1 1 where
  σ := AFollowFull
  set s p := match p with
    | .attackRelease a r => s.setTime a r
    | _ => s
  rate := AFollowFull.setRate
  tick s x := let r := afollowTick s.base (x 0); ({ s with base := r.1 }, fun _ => r.2)

/-! ## Constant, oscillator and nested allpass -/

/-- `Constant<N>`: `audionode.rs:463-488`; the setting gives all channels the same value. -/
def constComp (n : Nat) : Comp 0 n where
  σ := Frame ℝ n
  set s p := match p with
    | .value v => fun _ => v
    | _ => s
  rate s _ := s
  tick s _ := (s, s)

/-- `Dsf<U1>`: `oscillator.rs:160-199`. -/
def dsfComp1 (rnd : BitVec 64 → ℝ) : Comp 1 1 where
  σ := Osc.DsfSt
  set s p := match p with
    | .roughness r => s.setRoughness r
    | _ => s
  rate s sr := { s with osc := s.osc.setSampleRate sr }
  tick := (Osc.dsf1 rnd).tick

/-- `Dsf<U2>`: `oscillator.rs:160-199`. -/
def dsfComp2 (rnd : BitVec 64 → ℝ) : Comp 2 1 where
  σ := Osc.DsfSt
  set s p := match p with
    | .roughness r => s.setRoughness r
    | _ => s
  rate s sr := { s with osc := s.osc.setSampleRate sr }
  tick := (Osc.dsf2 rnd).tick

/-- The unit inside a nested allpass, as the model of the allpass takes it. -/
def Comp.node (X : Comp 1 1) : Node ℝ 1 1 := .ofTick X.σ id X.tick

/-- `AllNest` with `n` parameter inputs: `delay.rs:331-364`. The inner unit is told the sample rate and no setting. -/
def allnestComp (X : Comp 1 1) (n : Nat) : Comp (n + 1) 1 where
  σ := AllNestSt X.node
  set s p := match p with
    | .coefficient v => { s with eta := v }
    | _ => s
  rate s sr := { s with x := X.rate s.x sr }
  tick := allnestTick X.node n

/-- `AllNest::new`: `delay.rs:311-320`. -/
def allnestNew (X : Comp 1 1) (v : ℝ) (x : X.σ) : AllNestSt X.node := ⟨x, v, 0⟩

end Fundsp.Param
