import Verif.Core.Combinators
import Verif.Delay.Model
import Verif.Resample.Model
import Verif.Param.Model
import Verif.Filter.SvfIn
import Verif.Dyn.Model

/-!
# Setting the sample rate of composed units: model

`AudioNode::set_sample_rate` (`audionode.rs:52-66`) of the combinators, with the `tick`, `process` and `reset` of Core/Combinators.
-/

noncomputable section
namespace Fundsp.Rate

/-- A unit with `set_sample_rate` and with its other methods that change it (`set`, `ping` and the like), of which nothing is assumed. -/
structure Cell (i o : Nat) where
  node : Node ℝ i o
  /-- `set_sample_rate` -/
  rate : node.σ → ℝ → node.σ
  Op : Type
  op : node.σ → Op → node.σ

variable {i j o p : Nat}

/-- Units that do not implement `set_sample_rate`: `audionode.rs:64-66`. -/
def Cell.plain (N : Node ℝ i o) : Cell i o := ⟨N, fun s _ => s, Empty, fun s _ => s⟩

/-- A pair of units in one node: settings reach either of them (`Address::Left`, `Address::Right`). -/
def opPair {S T P Q : Type} (f : S → P → S) (g : T → Q → T) (s : S × T) : P ⊕ Q → S × T
  | .inl a => (f s.1 a, s.2)
  | .inr b => (s.1, g s.2 b)

/-- `Binop`: `audionode.rs:893-896`. -/
def Cell.binop (op : ℝ → ℝ → ℝ) (X : Cell i o) (Y : Cell j o) : Cell (i + j) o :=
  ⟨Fundsp.binop op X.node Y.node, fun s r => (X.rate s.1 r, Y.rate s.2 r), X.Op ⊕ Y.Op, opPair X.op Y.op⟩

/-- `Unop`: `audionode.rs:1197-1199`. -/
def Cell.unop (op : ℝ → ℝ) (X : Cell i o) : Cell i o := ⟨Fundsp.unop op X.node, X.rate, X.Op, X.op⟩

/-- `Pipe`: `audionode.rs:1344-1347`. -/
def Cell.pipe (X : Cell i j) (Y : Cell j o) : Cell i o :=
  ⟨Fundsp.pipe X.node Y.node, fun s r => (X.rate s.1 r, Y.rate s.2 r), X.Op ⊕ Y.Op, opPair X.op Y.op⟩

/-- `Stack`: `audionode.rs:1448-1451`. -/
def Cell.stack (X : Cell i o) (Y : Cell j p) : Cell (i + j) (o + p) :=
  ⟨Fundsp.stack X.node Y.node, fun s r => (X.rate s.1 r, Y.rate s.2 r), X.Op ⊕ Y.Op, opPair X.op Y.op⟩

/-- `Branch`: `audionode.rs:1576-1579`. -/
def Cell.branch (X : Cell i o) (Y : Cell i p) : Cell i (o + p) :=
  ⟨Fundsp.branch X.node Y.node, fun s r => (X.rate s.1 r, Y.rate s.2 r), X.Op ⊕ Y.Op, opPair X.op Y.op⟩

/-- `Bus`: `audionode.rs:1695-1698`. -/
def Cell.bus (X Y : Cell i o) : Cell i o :=
  ⟨Fundsp.bus (· + ·) X.node Y.node, fun s r => (X.rate s.1 r, Y.rate s.2 r), X.Op ⊕ Y.Op, opPair X.op Y.op⟩

/-- `Thru`: `audionode.rs:1775-1777`. -/
def Cell.thru (X : Cell i o) : Cell i i := ⟨Fundsp.thru X.node, X.rate, X.Op, X.op⟩

/-- Settings of one of several units (`Address::Index`). -/
def opNth {S P : Type} {n : Nat} (f : S → P → S) (s : Fin n → S) (a : Fin n × P) : Fin n → S := fun k => if k = a.1 then f (s k) a.2 else s k

/-- `MultiBus`: `audionode.rs:1886-1890`. -/
def Cell.multiBus (n : Nat) (X : Cell i o) : Cell i o :=
  ⟨Fundsp.multiBus (· + ·) 0 n X.node, fun s r k => X.rate (s k) r, Fin (n + 1) × X.Op, opNth X.op⟩

/-- `MultiStack`: `audionode.rs:2016-2020`. -/
def Cell.multiStack (n : Nat) (X : Cell i o) : Cell (i * n) (o * n) :=
  ⟨Fundsp.multiStack n X.node, fun s r k => X.rate (s k) r, Fin n × X.Op, opNth X.op⟩

/-- `Reduce`: `audionode.rs:2147-2151`. -/
def Cell.reduce (op : ℝ → ℝ → ℝ) (n : Nat) (X : Cell i o) : Cell (i * (n + 1)) o :=
  ⟨Fundsp.reduce op n X.node, fun s r k => X.rate (s k) r, Fin (n + 1) × X.Op, opNth X.op⟩

/-- `MultiBranch`: `audionode.rs:2279-2283`. -/
def Cell.multiBranch (n : Nat) (X : Cell i o) : Cell i (o * n) :=
  ⟨Fundsp.multiBranch n X.node, fun s r k => X.rate (s k) r, Fin n × X.Op, opNth X.op⟩

/-- `Chain`: `audionode.rs:2395-2399`. -/
def Cell.chain (n : Nat) (X : Cell i i) : Cell i i :=
  ⟨Fundsp.chain n X.node, fun s r k => X.rate (s k) r, Fin (n + 1) × X.Op, opNth X.op⟩

/-- `Feedback`: `feedback.rs:123-125`. -/
def Cell.feedback {n : Nat} (op : Frame ℝ n → Frame ℝ n) (X : Cell n n) : Cell n n :=
  ⟨Delay.feedbackNode 0 (· + ·) op X.node, fun s r => (X.rate s.1 r, s.2), X.Op, fun s a => (X.op s.1 a, s.2)⟩

/-- `Feedback2`: `feedback.rs:234-237`. -/
def Cell.feedback2 {n : Nat} (op : Frame ℝ n → Frame ℝ n) (X Y : Cell n n) : Cell n n :=
  ⟨Delay.feedback2Node 0 (· + ·) op X.node Y.node, fun s r => (X.rate s.1 r, Y.rate s.2.1 r, s.2.2), X.Op ⊕ Y.Op, fun s a =>
    match a with
    | .inl a => (X.op s.1 a, s.2)
    | .inr b => (s.1, Y.op s.2.1 b, s.2.2)⟩

/-- `FeedbackUnit` with the fields that `set_sample_rate` uses: `feedback.rs:275-298`. -/
structure FbuSt {n : Nat} (X : Node ℝ n n) where
  base : Delay.FbState X
  sr : ℝ
  delay : ℝ

/-- `round(x) as usize` of a nonnegative number, zero of a negative one; `max(1.0)` is part of `fbSetup`. -/
def roundNat (x : ℝ) : Nat := ⌊x + 1 / 2⌋₊

open Classical in
/-- `FeedbackUnit`: `set_sample_rate` is `feedback.rs:341-354`. -/
def Cell.feedbackUnit {n : Nat} (X : Cell n n) : Cell n n where
  node := {
    σ := FbuSt X.node
    reset := fun s => { s with base := Delay.fbReset 0 s.base }
    tick := fun s x => let r := Delay.fbTick 0 (· + ·) X.node s.base x; ({ s with base := r.1 }, r.2)
    process := fun g s size inp out => let r := Delay.fbProcess 0 (· + ·) X.node g s.base size inp out; ({ s with base := r.1 }, r.2) }
  rate := fun s r => if s.sr ≠ r then { s with base := Delay.fbSetup 0 (X.rate s.base.x r) (roundNat (s.delay * r)), sr := r } else s
  Op := X.Op
  op := fun s a => { s with base := { s.base with x := X.op s.base.x a } }

/-- `FeedbackUnit::new`: `feedback.rs:305-323`. -/
def fbuNew {n : Nat} (X : Cell n n) (x : X.node.σ) (delay : ℝ) : FbuSt X.node :=
  (X.feedbackUnit).rate ⟨⟨x, ⟨[], 0⟩, 0⟩, 0, delay⟩ 44100

/-- `Resampler`: `resample.rs:70-72`. -/
def Cell.resampler (X : Cell 0 o) : Cell 1 o :=
  ⟨Rs.resampler X.node, fun s r => { s with x := X.rate s.x r }, X.Op, fun s a => { s with x := X.op s.x a }⟩

/-- `Resampler::new` at the default sample rate: `resample.rs:28-38`, `prelude.rs:1014-1021`. -/
def resNew (X : Cell 0 o) (x : X.node.σ) : Rs.ResSt X.node.σ o := Rs.resNew X.node (X.rate x 44100)

/-- `Oversampler`: `oversample.rs:250-253`. -/
def Cell.oversampler (h : Nat → ℝ) (X : Cell i o) : Cell i o :=
  ⟨Rs.oversampler h X.node, fun s r => { s with x := X.rate s.x (r * 2) }, X.Op, fun s a => { s with x := X.op s.x a }⟩

/-- `Oversampler::new` at the default sample rate: `oversample.rs:208-219`, `prelude.rs:993-1002`. -/
def overNew (X : Cell i o) (x : X.node.σ) : Rs.OverSt X.node.σ i o := Rs.overNew X.node (X.rate x (44100 * 2))

/-! ## Units that use the sample rate -/

open Fundsp.Param Fundsp.Filter

/-- A unit of Param/Model with its `reset`; `process` is the default one. -/
def Cell.ofComp (C : Comp i o) (reset : C.σ → C.σ) : Cell i o := ⟨.ofTick C.σ reset C.tick, C.rate, Par, C.set⟩

/-- `Lowpole`: `reset` is `filter.rs:54-56`. -/
def lowpoleCell (n : Nat) : Cell (n + 1) 1 := .ofComp (lowpoleComp n) (fun s : LowpoleFull => { s with base := { s.base with value := 0 } })

/-- `Highpole`: `reset` is `filter.rs:387-390`. -/
def highpoleCell (n : Nat) : Cell (n + 1) 1 := .ofComp (highpoleComp n) (fun s : HighpoleFull => { s with base := s.base.reset })

/-- `DCBlock`: `reset` is `filter.rs:134-137`. -/
def dcCell : Cell 1 1 := .ofComp dcComp (fun s : DcFull => { s with base := s.base.reset })

/-- `ButterLowpass`: `reset` is `biquad.rs:259-261`. -/
def butterCell (n : Nat) : Cell (n + 1) 1 := .ofComp (butterComp n) (fun s : ButterFull => { s with biquad := { s.biquad with base := ⟨0, 0, 0, 0⟩ } })

/-- `Resonator`: `reset` is `biquad.rs:345-347`. -/
def resonatorCell (n : Nat) : Cell (n + 1) 1 := .ofComp (resonatorComp n) (fun s : ResonatorFull => { s with biquad := { s.biquad with base := ⟨0, 0, 0, 0⟩ } })

/-- `Rez`: `reset` is `rez.rs:54-57`. -/
def rezCell : Cell 1 1 := .ofComp rezComp1 RezSt.reset

/-- `Follow`: `reset` is `follow.rs:88-93`. -/
def followCell : Cell 1 1 := .ofComp followComp (fun s : FollowFull => { s with base := followReset s.base })

/-- `AFollow`: `reset` is `follow.rs:210-216`. -/
def afollowCell : Cell 1 1 := .ofComp afollowComp (fun s : AFollowFull => { s with base := afollowReset s.base })

/-- `Svf`: `set_sample_rate` is `svf.rs:828-831`; the setting is that of the subsampling period. -/
def svfCell (m : SvfMode) : Cell m.arity 1 := ⟨svfIn m, SvfSt.setSampleRate m, Nat, SvfSt.setSubsample⟩

/-- `FixedSvf`: `set_sample_rate` is `svf.rs:1005-1008`. The other methods are those of its setters that `ok` allows. -/
def fixedSvfCell (m : SvfMode) (ok : FixedSet → Prop) : Cell 1 1 := ⟨fixedSvf, fun s r => FixedSt.set m s (.sampleRate r), { a : FixedSet // ok a }, fun s a => FixedSt.set m s a.1⟩

/-- `Ramp`: `set_sample_rate` is `oscillator.rs:482-484`; the other method is `set_hash`. -/
def rampCell (rnd : BitVec 64 → ℝ) : Cell 1 1 := ⟨Osc.ramp rnd, Osc.OscSt.setSampleRate, BitVec 64, Osc.OscSt.setHash rnd⟩

/-- `Limiter::set_sample_rate`: `dynamics.rs:186-196`. The lookahead is in seconds; `a`, `r` are the coefficients of its follower at the new rate
(`follow.rs:178-191`). -/
def limSetRate {n : Nat} (lookahead a r : ℝ) (s : Dyn.LimSt n) (sr : ℝ) : Dyn.LimSt n :=
  let length := Dyn.limLength sr lookahead
  let red := if length ≠ s.red.length then Dyn.rbNew 0 length else s.red
  ⟨Dyn.rbClear 0 red, { s.fol with
      acoeff := a, rcoeff := r,
      acoeffNow := if s.fol.acoeffNow < 1 then a else s.fol.acoeffNow,
      rcoeffNow := if s.fol.acoeffNow < 1 then r else s.fol.rcoeffNow }, [], 0⟩

end Fundsp.Rate
