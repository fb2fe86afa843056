import Verif.Filter.Stable
import Verif.Shape.Model

/-! Model of the nonlinear biquads of `src/biquad.rs:386-920` and of `src/biquad_bank.rs`, over the reals. -/

namespace Fundsp.Filter
open Fundsp.Shape

/-- `BiquadParams`: `biquad.rs:383-395`. -/
structure BParams where
  sr : ℝ
  center : ℝ
  q : ℝ
  gain : ℝ

/-- `BiquadMode`: `biquad.rs:404-410`. Modes have no state of their own: `update` assigns all coefficients from the parameters. -/
structure BMode where
  inputs : Nat
  coefs : BParams → BiquadCoefs ℝ

/-- `ResonatorBiquad`, `LowpassBiquad`, `HighpassBiquad`, `BellBiquad`: `biquad.rs:412-491`. -/
noncomputable def resonatorMode : BMode := ⟨3, fun p => resonatorCoefs p.sr p.center p.q⟩
noncomputable def lowpassMode : BMode := ⟨3, fun p => lowpassCoefs p.sr p.center p.q⟩
noncomputable def highpassMode : BMode := ⟨3, fun p => highpassCoefs p.sr p.center p.q⟩
noncomputable def bellMode : BMode := ⟨4, fun p => bellCoefs p.sr p.center p.q p.gain⟩

/-- Initial parameters in `new`: `biquad.rs:510-515`. -/
def initParams : BParams := ⟨44100, 440, 1, 1⟩

/-- `input[i]`; only evaluated for `i` below the number of inputs. -/
def inAt {n : Nat} (x : Frame ℝ n) (i : Nat) : ℝ := if h : i < n then x ⟨i, h⟩ else 0

/-- Parameter inputs in `FbBiquad::tick` and `DirtyBiquad::tick`: `biquad.rs:541-572`, `739-770`. -/
noncomputable def followParams (M : BMode) (pc : BParams × BiquadCoefs ℝ) (x : Frame ℝ M.inputs) : BParams × BiquadCoefs ℝ :=
  let pc := if M.inputs = 2 then
      let center := inAt x 1
      if center ≠ pc.1.center then
        let p := { pc.1 with center := center }
        (p, M.coefs p)
      else pc
    else pc
  let pc := if M.inputs = 3 then
      let center := inAt x 1
      let q := inAt x 2
      if (center - pc.1.center) * (center - pc.1.center) + (q - pc.1.q) * (q - pc.1.q) ≠ 0 then
        let p := { pc.1 with center := center, q := q }
        (p, M.coefs p)
      else pc
    else pc
  if M.inputs = 4 then
      let center := inAt x 1
      let q := inAt x 2
      let gain := inAt x 3
      if (center - pc.1.center) * (center - pc.1.center) + (q - pc.1.q) * (q - pc.1.q) + (gain - pc.1.gain) * (gain - pc.1.gain) ≠ 0 then
        let p := { pc.1 with center := center, q := q, gain := gain }
        (p, M.coefs p)
      else pc
    else pc

/-! ## Nonlinear feedback -/

/-- State of `FbBiquad` and `FixedFbBiquad`: `biquad.rs:495-502`, `591-598`. -/
structure FbSt (τ : Type) where
  coefs : BiquadCoefs ℝ
  params : BParams
  shape : τ
  s1 : ℝ
  s2 : ℝ

/-- `FbBiquad::set_sample_rate` and that of `FixedFbBiquad`: `biquad.rs:535-538`, `678-681`. The shape is not told. -/
def FbSt.setRate {τ : Type} (M : BMode) (s : FbSt τ) (sr : ℝ) : FbSt τ :=
  { s with params := { s.params with sr := sr }, coefs := M.coefs { s.params with sr := sr } }

/-- `FbBiquad::new`, `FixedFbBiquad::new`: `biquad.rs:506-522`, `610-626`. Default coefficients are zero. -/
def fbNew {τ : Type} (M : BMode) (shape : τ) : FbSt τ :=
  FbSt.setRate M { coefs := ⟨0, 0, 0, 0, 0⟩, params := initParams, shape := shape, s1 := 0, s2 := 0 } 44100

/-- The filter proper: `biquad.rs:577-582`, `686-691`. -/
def fbStep (S : Shape ℝ) (s : FbSt S.σ) (x0 : ℝ) : FbSt S.σ × ℝ :=
  let y0 := s.coefs.b0 * x0 + s.s1
  let r := S.shape s.shape y0
  let fb := r.2
  ({ s with shape := r.1, s1 := s.s2 + s.coefs.b1 * x0 - fb * s.coefs.a1, s2 := s.coefs.b2 * x0 - fb * s.coefs.a2 }, y0)

/-- `reset`: `biquad.rs:529-533`, `659-663`. -/
def FbSt.reset (S : Shape ℝ) (s : FbSt S.σ) : FbSt S.σ := { s with s1 := 0, s2 := 0, shape := S.reset s.shape }

/-- `FbBiquad`: `biquad.rs:524-588`. -/
noncomputable def fbNode (M : BMode) (S : Shape ℝ) : Node ℝ M.inputs 1 :=
  .ofTick (FbSt S.σ) (FbSt.reset S) (fun s x =>
    let pc := followParams M (s.params, s.coefs) x
    let r := fbStep S { s with params := pc.1, coefs := pc.2 } (inAt x 0)
    (r.1, fun _ => r.2))

/-- `FixedFbBiquad`: `biquad.rs:654-697`. -/
def fixedFbNode (S : Shape ℝ) : Node ℝ 1 1 :=
  .ofTick (FbSt S.σ) (FbSt.reset S) (fun s x => ((fbStep S s (x 0)).1, fun _ => (fbStep S s (x 0)).2))

/-- The settings understood by the filters with fixed parameters: `biquad.rs:665-678`. -/
inductive BSetting
  | center (c : ℝ)
  | centerQ (c q : ℝ)
  | centerQGain (c q g : ℝ)
  | other

/-- The parameters after a setting: `set_center`, `set_center_q`, `set_center_q_gain`, `biquad.rs:629-651`. -/
def BSetting.params (p : BParams) : BSetting → BParams
  | .center c => { p with center := c }
  | .centerQ c q => { p with center := c, q := q }
  | .centerQGain c q g => { p with center := c, q := q, gain := g }
  | .other => p

/-- `FixedFbBiquad::set`: `biquad.rs:665-678`. -/
def FbSt.set {τ : Type} (M : BMode) (s : FbSt τ) : BSetting → FbSt τ
  | .other => s
  | b => { s with params := b.params s.params, coefs := M.coefs (b.params s.params) }

/-! ## Nonlinear state shaping -/

/-- State of `DirtyBiquad` and `FixedDirtyBiquad`: `biquad.rs:699-707`, `806-814`. -/
structure DirtySt (τ : Type) where
  coefs : BiquadCoefs ℝ
  params : BParams
  shape1 : τ
  shape2 : τ
  s1 : ℝ
  s2 : ℝ

/-- `biquad.rs:729-732`, `883-886`. -/
def DirtySt.setRate {τ : Type} (M : BMode) (s : DirtySt τ) (sr : ℝ) : DirtySt τ :=
  { s with params := { s.params with sr := sr }, coefs := M.coefs { s.params with sr := sr } }

/-- `DirtyBiquad::new`, `FixedDirtyBiquad::new`: `biquad.rs:711-730`, `818-837`. -/
def dirtyNew {τ : Type} (M : BMode) (shape : τ) : DirtySt τ :=
  DirtySt.setRate M { coefs := ⟨0, 0, 0, 0, 0⟩, params := initParams, shape1 := shape, shape2 := shape, s1 := 0, s2 := 0 } 44100

/-- The filter proper: `biquad.rs:775-785`, `889-899`. -/
def dirtyStep (S : Shape ℝ) (s : DirtySt S.σ) (x0 : ℝ) : DirtySt S.σ × ℝ :=
  let y0 := s.coefs.b0 * x0 + s.s1
  let r1 := S.shape s.shape1 (s.s2 + s.coefs.b1 * x0 - y0 * s.coefs.a1)
  let r2 := S.shape s.shape2 (s.coefs.b2 * x0 - y0 * s.coefs.a2)
  ({ s with shape1 := r1.1, shape2 := r2.1, s1 := r1.2, s2 := r2.2 }, y0)

/-- `reset`: `biquad.rs:738-743`, `878-883`. -/
def DirtySt.reset (S : Shape ℝ) (s : DirtySt S.σ) : DirtySt S.σ :=
  { s with s1 := 0, s2 := 0, shape1 := S.reset s.shape1, shape2 := S.reset s.shape2 }

/-- `DirtyBiquad`: `biquad.rs:733-802`. -/
noncomputable def dirtyNode (M : BMode) (S : Shape ℝ) : Node ℝ M.inputs 1 :=
  .ofTick (DirtySt S.σ) (DirtySt.reset S) (fun s x =>
    let pc := followParams M (s.params, s.coefs) x
    let r := dirtyStep S { s with params := pc.1, coefs := pc.2 } (inAt x 0)
    (r.1, fun _ => r.2))

/-- `FixedDirtyBiquad`: `biquad.rs:873-920`. -/
def fixedDirtyNode (S : Shape ℝ) : Node ℝ 1 1 :=
  .ofTick (DirtySt S.σ) (DirtySt.reset S) (fun s x => ((dirtyStep S s (x 0)).1, fun _ => (dirtyStep S s (x 0)).2))

/-- `FixedDirtyBiquad::set`: `biquad.rs:885-896`. -/
def DirtySt.set {τ : Type} (M : BMode) (s : DirtySt τ) : BSetting → DirtySt τ
  | .other => s
  | b => { s with params := b.params s.params, coefs := M.coefs (b.params s.params) }

/-! ## Bank -/

/-- State of `BiquadBank` with `n` lanes: `biquad_bank.rs:14-24`. -/
structure BankSt (K : Type) (n : Nat) where
  a1 : Frame K n
  a2 : Frame K n
  b0 : Frame K n
  b1 : Frame K n
  b2 : Frame K n
  x1 : Frame K n
  x2 : Frame K n
  y1 : Frame K n
  y2 : Frame K n

/-- `BiquadBank::tick`: `biquad_bank.rs:73-84`; the operations of `F` act lane by lane. -/
def bankTick {K : Type} [Add K] [Sub K] [Mul K] {n : Nat} (s : BankSt K n) (x0 : Frame K n) : BankSt K n × Frame K n :=
  let y0 : Frame K n := fun l => s.b0 l * x0 l + s.b1 l * s.x1 l + s.b2 l * s.x2 l - s.a1 l * s.y1 l - s.a2 l * s.y2 l
  ({ s with x2 := s.x1, x1 := x0, y2 := s.y1, y1 := y0 }, y0)

/-- `BiquadBank::set`: `biquad_bank.rs:86-96`; `none` is the panic of an index beyond the lanes. Only the one-lane types `f32`, `f64`
ignore the index; they are not covered here. -/
def BankSt.set {K : Type} {n : Nat} (s : BankSt K n) (index : Nat) (c : BiquadCoefs K) : Option (BankSt K n) :=
  if h : index < n then
    some { s with
      a1 := Function.update s.a1 ⟨index, h⟩ c.a1
      a2 := Function.update s.a2 ⟨index, h⟩ c.a2
      b0 := Function.update s.b0 ⟨index, h⟩ c.b0
      b1 := Function.update s.b1 ⟨index, h⟩ c.b1
      b2 := Function.update s.b2 ⟨index, h⟩ c.b2 }
  else none

/-- `BiquadBank`: `biquad_bank.rs:53-97`. -/
def bankNode {K : Type} [Add K] [Sub K] [Mul K] [Zero K] (n : Nat) : Node K n n :=
  .ofTick (BankSt K n) (fun s => { s with x1 := 0, x2 := 0, y1 := 0, y2 := 0 }) bankTick

/-- `BiquadBank::new`: all coefficients zero, `biquad_bank.rs:30-35`. -/
def bankNew {K : Type} [Zero K] (n : Nat) : BankSt K n := ⟨0, 0, 0, 0, 0, 0, 0, 0, 0⟩

end Fundsp.Filter
