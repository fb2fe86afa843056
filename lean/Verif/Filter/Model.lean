import Verif.Delay.Model
import Mathlib.Algebra.Field.Defs
import Mathlib.Algebra.Order.Field.Basic
import Mathlib.Tactic.NormNum

/-! Filters: `/repo/src/filter.rs`, `/repo/src/follow.rs`, `/repo/src/fir.rs`, `/repo/src/biquad.rs`, `/repo/src/svf.rs`, `AllNest` of
`/repo/src/delay.rs`. The internal type `F` and `f32` are an arbitrary field (rounding and conversions are not modelled). -/

namespace Fundsp.Filter

/-! ## First order filters -/

/-- State of `Lowpole`: `filter.rs:19-25`, without the sample rate. -/
structure LowpoleSt (K : Type) where
  value : K
  coeff : K
  cutoff : K

section
variable {K : Type} [Field K]

/-- `Lowpole::tick`: `filter.rs:64-74`. `cf` computes the coefficient from the cutoff frequency (`set_cutoff`, `filter.rs:43-46`); it
is applied only if there are two inputs and the cutoff has changed. -/
def lowpoleTick [DecidableEq K] (cf : K → K) (n : Nat) (s : LowpoleSt K) (x : Frame K (n + 1)) : LowpoleSt K × Frame K 1 :=
  let s := if h : 1 < n + 1 then
      let c := x ⟨1, h⟩
      if c ≠ s.cutoff then { s with cutoff := c, coeff := cf c } else s
    else s
  let v := (1 - s.coeff) * x 0 + s.coeff * s.value
  ({ s with value := v }, fun _ => v)

/-- `Lowpole`: `filter.rs:12-93`; `n` is the number of optional inputs. -/
def lowpoleNode [DecidableEq K] (cf : K → K) (n : Nat) : Node K (n + 1) 1 :=
  .ofTick (LowpoleSt K) (fun s => { s with value := 0 }) (lowpoleTick cf n)

/-- State of `DCBlock`, `Allpole`, `Highpole`: `filter.rs:102-108,269-275,353-360`. -/
structure PoleZero (K : Type) where
  x1 : K
  y1 : K
  coeff : K

/-- `reset` of these filters: `filter.rs:134-137`, `304-307`, `387-390`. -/
def PoleZero.reset (s : PoleZero K) : PoleZero K := { s with x1 := 0, y1 := 0 }

/-- `DCBlock::tick`: `filter.rs:145-151`. -/
def dcblockNode : Node K 1 1 :=
  .ofTick (PoleZero K) PoleZero.reset (fun s x =>
    let y0 := x 0 - s.x1 + s.coeff * s.y1
    ({ s with x1 := x 0, y1 := y0 }, fun _ => y0))

/-- `Allpole::set_delay`: `filter.rs:294-296`. -/
def allpoleEta (delay : K) : K := (1 - delay) / (1 + delay)

/-- `Allpole::tick`: `filter.rs:314-323`; the coefficient is `eta`. With two inputs, the second is the delay. -/
def allpoleTick (n : Nat) (s : PoleZero K) (x : Frame K (n + 1)) : PoleZero K × Frame K 1 :=
  let s := if h : 1 < n + 1 then { s with coeff := allpoleEta (x ⟨1, h⟩) } else s
  let y0 := s.coeff * (x 0 - s.y1) + s.x1
  ({ s with x1 := x 0, y1 := y0 }, fun _ => y0)

/-- `Allpole`: `filter.rs:299-344`. -/
def allpoleNode (n : Nat) : Node K (n + 1) 1 := .ofTick (PoleZero K) PoleZero.reset (allpoleTick n)

/-- `Highpole::tick` with one input: `filter.rs:398-411`. -/
def highpoleNode : Node K 1 1 :=
  .ofTick (PoleZero K) PoleZero.reset (fun s x =>
    let y0 := s.coeff * (s.y1 + x 0 - s.x1)
    ({ s with x1 := x 0, y1 := y0 }, fun _ => y0))

/-- State of `Pinkpass`: `filter.rs:178-188`. -/
structure PinkSt (K : Type) where
  b0 : K
  b1 : K
  b2 : K
  b3 : K
  b4 : K
  b5 : K
  b6 : K

/-- `Pinkpass::tick`: `filter.rs:220-240`. -/
def pinkTick (s : PinkSt K) (x : K) : PinkSt K × K :=
  let b0 := 0.99886 * s.b0 + x * 0.0555179
  let b1 := 0.99332 * s.b1 + x * 0.0750759
  let b2 := 0.96900 * s.b2 + x * 0.1538520
  let b3 := 0.86650 * s.b3 + x * 0.3104856
  let b4 := 0.55000 * s.b4 + x * 0.5329522
  let b5 := -0.7616 * s.b5 - x * 0.0168980
  let out := (b0 + b1 + b2 + b3 + b4 + b5 + s.b6 + x * 0.5362) * 0.115830421
  (⟨b0, b1, b2, b3, b4, b5, x * 0.115926⟩, out)

/-- `Pinkpass`: `filter.rs:200-260`. -/
def pinkNode : Node K 1 1 :=
  .ofTick (PinkSt K) (fun _ => ⟨0, 0, 0, 0, 0, 0, 0⟩) (fun s x => ((pinkTick s (x 0)).1, fun _ => (pinkTick s (x 0)).2))

/-! ## Followers -/

/-- `Follow`: `follow.rs:31-43`. -/
structure FollowSt (K : Type) where
  v1 : K
  v2 : K
  v3 : K
  coeff : K
  coeffNow : K

/-- `Follow::tick`: `follow.rs:101-109`. -/
def followTick (s : FollowSt K) (x : K) : FollowSt K × K :=
  let r := 1 - s.coeffNow
  let v1 := s.coeffNow * x + r * s.v1
  let v2 := s.coeffNow * v1 + r * s.v2
  let v3 := s.coeffNow * v2 + r * s.v3
  (⟨v1, v2, v3, s.coeff, s.coeff⟩, v3)

/-- `Follow::reset`: `follow.rs:88-93`. -/
def followReset (s : FollowSt K) : FollowSt K := { s with v1 := 0, v2 := 0, v3 := 0, coeffNow := 1 }

/-- `Follow`: `follow.rs:83-131`. -/
def followNode : Node K 1 1 :=
  .ofTick (FollowSt K) followReset (fun s x => ((followTick s (x 0)).1, fun _ => (followTick s (x 0)).2))

/-- `AFollow`: `follow.rs:137-151`. -/
structure AFollowSt (K : Type) where
  v1 : K
  v2 : K
  v3 : K
  acoeff : K
  rcoeff : K
  acoeffNow : K
  rcoeffNow : K

/-- `filter_pole` for pairs: `combinator.rs:164-173`. -/
def filterPole [LinearOrder K] (input current a r : K) : K := current + max 0 (input - current) * a - max 0 (current - input) * r

/-- `AFollow::tick`: `follow.rs:225-246`. -/
def afollowTick [LinearOrder K] (s : AFollowSt K) (x : K) : AFollowSt K × K :=
  let v1 := filterPole x s.v1 s.acoeffNow s.rcoeffNow
  let v2 := filterPole v1 s.v2 s.acoeffNow s.rcoeffNow
  let v3 := filterPole v2 s.v3 s.acoeffNow s.rcoeffNow
  (⟨v1, v2, v3, s.acoeff, s.rcoeff, s.acoeff, s.rcoeff⟩, v3)

/-- `AFollow::reset`: `follow.rs:210-216`. -/
def afollowReset (s : AFollowSt K) : AFollowSt K := { s with v1 := 0, v2 := 0, v3 := 0, acoeffNow := 1, rcoeffNow := 1 }

/-- `AFollow`: `follow.rs:205-272`. -/
def afollowNode [LinearOrder K] : Node K 1 1 :=
  .ofTick (AFollowSt K) afollowReset (fun s x => ((afollowTick s (x 0)).1, fun _ => (afollowTick s (x 0)).2))

/-! ## Biquad -/

/-- `BiquadCoefs`: `biquad.rs:18-25`. -/
structure BiquadCoefs (K : Type) where
  a1 : K
  a2 : K
  b0 : K
  b1 : K
  b2 : K

/-- State of `Biquad`: `biquad.rs:135-142`. -/
structure BiquadSt (K : Type) where
  x1 : K
  x2 : K
  y1 : K
  y2 : K

/-- `Biquad::tick`: `biquad.rs:184-195`. -/
def biquadTick (c : BiquadCoefs K) (s : BiquadSt K) (x0 : K) : BiquadSt K × K :=
  let y0 := c.b0 * x0 + c.b1 * s.x1 + c.b2 * s.x2 - c.a1 * s.y1 - c.a2 * s.y2
  (⟨x0, s.x1, y0, s.y1⟩, y0)

/-- `Biquad` with fixed coefficients: `biquad.rs:130-222`. -/
def biquadNode (c : BiquadCoefs K) : Node K 1 1 :=
  .ofTick (BiquadSt K) (fun _ => ⟨0, 0, 0, 0⟩) (fun s x => ((biquadTick c s (x 0)).1, fun _ => (biquadTick c s (x 0)).2))

/-! ## State variable filter -/

/-- `SvfCoefs`: `svf.rs:17-25`. -/
structure SvfCoefs (K : Type) where
  a1 : K
  a2 : K
  a3 : K
  m0 : K
  m1 : K
  m2 : K

/-- `FixedSvf::tick`: `svf.rs:1011-1023`; the state is `(ic1eq, ic2eq)`. -/
def svfTick (c : SvfCoefs K) (s : K × K) (v0 : K) : (K × K) × K :=
  let v3 := v0 - s.2
  let v1 := c.a1 * s.1 + c.a2 * v3
  let v2 := s.2 + c.a2 * s.1 + c.a3 * v3
  ((2 * v1 - s.1, 2 * v2 - s.2), c.m0 * v0 + c.m1 * v1 + c.m2 * v2)

/-- `FixedSvf` with fixed coefficients: `svf.rs:866-1047`. -/
def svfNode (c : SvfCoefs K) : Node K 1 1 :=
  .ofTick (K × K) (fun _ => (0, 0)) (fun s x => ((svfTick c s (x 0)).1, fun _ => (svfTick c s (x 0)).2))

/-- The part common to all modes: `svf.rs:30-34` and the like. -/
def svfCoefs (g k m0 m1 m2 : K) : SvfCoefs K :=
  let a1 := 1 / (1 + g * (g + k))
  let a2 := g * a1
  let a3 := g * a2
  ⟨a1, a2, a3, m0, m1, m2⟩

/-- Mode coefficients: `svf.rs:29-226`. `t` is `tan(pi * cutoff / sample_rate)`, `q` the Q value, `a` is `sqrt(gain)` and `sa` is `sqrt(a)`. -/
def svfLowpass (t q : K) : SvfCoefs K := svfCoefs t (1 / q) 0 0 1
/-- `SvfCoefs::highpass`: `svf.rs:49-67`. -/
def svfHighpass (t q : K) : SvfCoefs K := svfCoefs t (1 / q) 1 (-(1 / q)) (-1)
/-- `SvfCoefs::bandpass`: `svf.rs:70-88`. -/
def svfBandpass (t q : K) : SvfCoefs K := svfCoefs t (1 / q) 0 1 0
/-- `SvfCoefs::notch`: `svf.rs:91-109`. -/
def svfNotch (t q : K) : SvfCoefs K := svfCoefs t (1 / q) 1 (-(1 / q)) 0
/-- `SvfCoefs::peak`: `svf.rs:112-130`. -/
def svfPeak (t q : K) : SvfCoefs K := svfCoefs t (1 / q) 1 (-(1 / q)) (-2)
/-- `SvfCoefs::allpass`: `svf.rs:133-151`. -/
def svfAllpass (t q : K) : SvfCoefs K := svfCoefs t (1 / q) 1 (-2 * (1 / q)) 0
/-- `SvfCoefs::bell`: `svf.rs:155-174`. -/
def svfBell (t q a : K) : SvfCoefs K := svfCoefs t (1 / (q * a)) 1 (1 / (q * a) * (a * a - 1)) 0
/-- `SvfCoefs::lowshelf`: `svf.rs:178-197`. -/
def svfLowshelf (t q a sa : K) : SvfCoefs K := svfCoefs (t / sa) (1 / q) 1 (1 / q * (a - 1)) (a * a - 1)
/-- `SvfCoefs::highshelf`: `svf.rs:201-220`. -/
def svfHighshelf (t q a sa : K) : SvfCoefs K := svfCoefs (t * sa) (1 / q) (a * a) (1 / q * (1 - a) * a) (1 - a * a)

/-! ## Nested allpass -/

/-- `AllNest::tick`: `delay.rs:350-358`; state: inner unit, `eta`, `z`. -/
structure AllNestSt (X : Node K 1 1) where
  x : X.σ
  eta : K
  z : K

/-- `AllNest::tick`: `delay.rs:350-358`. -/
def allnestTick (X : Node K 1 1) (n : Nat) (s : AllNestSt X) (x : Frame K (n + 1)) : AllNestSt X × Frame K 1 :=
  let eta := if h : 1 < n + 1 then x ⟨1, h⟩ else s.eta
  let v := x 0 - eta * s.z
  let y := eta * v + s.z
  let r := X.tick s.x (fun _ => v)
  (⟨r.1, eta, r.2 0⟩, fun _ => y)

/-- `AllNest`: `delay.rs:297-380`. -/
def allnestNode (X : Node K 1 1) (n : Nat) : Node K (n + 1) 1 :=
  .ofTick (AllNestSt X) (fun s => { s with z := 0, x := X.reset s.x }) (allnestTick X n)

end

/-! ## FIR -/

/-- `Fir::tick`: `fir.rs:57-70`. Arithmetic is abstract: `mul`, `add` and `zero` are the operations of `f32`. -/
def firTick {α : Type} (zero : α) (add mul : α → α → α) {N : Nat} (w : Frame α N) (v : Frame α N) (x : Frame α 1) : Frame α N × Frame α 1 :=
  let v' : Frame α N := fun i => if h : i.1 + 1 < N then v ⟨i.1 + 1, h⟩ else x 0
  (v', fun _ => (List.finRange N).foldl (fun acc i => add acc (mul (w i) (v' i))) zero)

/-- `Fir<N>`: `fir.rs:10-86`. -/
def firNode {α : Type} (zero : α) (add mul : α → α → α) {N : Nat} (w : Frame α N) : Node α 1 1 :=
  .ofTick (Frame α N) (fun _ _ => zero) (firTick zero add mul w)

end Fundsp.Filter
