import Verif.Core.Props
import Verif.Delay.Hadamard
import Verif.Filter.Model
import Verif.Osc.Pluck
import Verif.Pan.Model
import Verif.Math.Model
import Verif.Shape.Model
import Verif.Delay.Props

/-!
# Effects of the prelude: model

Feedback delay networks and the stereo reverbs built from them, `/repo/src/prelude.rs:1316-1344, 1712-1742, 1853-1932`, and the modulation effects,
`prelude.rs:2649-2733`, over the reals. They are composed
from the nodes of the other modules with the operators of the library.
-/

noncomputable section
namespace Fundsp.Effect
open Fundsp.Delay Fundsp.Filter Fundsp.Pan

/-- `FrameHadamard` on a frame of `n` channels (a power of two): `feedback.rs:34-56`. -/
def hadFrame (p : Nat) {n : Nat} (f : Frame ℝ n) : Frame ℝ n := fun c => hadamard p (fun k => if h : k < n then f ⟨k, h⟩ else 0) c.1

/-- `fdn`: `prelude.rs:1316-1324`, of a stack of `n` mono nodes; `n = 2 ^ p`. -/
def fdn (p n : Nat) (X : Node ℝ 1 1) : Node ℝ (1 * n) (1 * n) := feedbackNode 0 (· + ·) (hadFrame p) (multiStack n X)

/-- `delay(..) >> fir(weights)`: `prelude.rs:1731-1732, 1911-1917`. -/
def lineNode (w : Frame ℝ 3) : Node ℝ 1 1 := pipe (delayNode 0) (firNode 0 (· + ·) (· * ·) w)

/-- A new line of `d` samples. -/
def lineNew (d : Nat) (w : Frame ℝ 3) : (lineNode w).σ := (delaySetup 0 d, fun _ => 0)

/-- A new network. -/
def fdnNew (p n : Nat) (w : Frame ℝ 3) (d : Fin n → Nat) : (fdn p n (lineNode w)).σ := (fun i => lineNew (d i) w, fun _ => 0)

/-- `sumf::<U{n+1}, ..>(|x| pan(lerp(-1.0, 1.0, smooth9(x))))`: `prelude.rs:1583-1601, 1740, 1931`. -/
def panSum (n : Nat) : Node ℝ (1 * (n + 1)) 2 := reduce (· + ·) n panner1

/-- Positions of the channels: the argument of the closure runs evenly from 0 to 1, `prelude.rs:1583-1601`. -/
def panSumNew (n : Nat) : (panSum n).σ := fun i => PanSt.ofPan (-1 + (1 - -1) * Math.smooth9 ((i.1 : ℝ) / n))

/-- Samples of a delay of `t` seconds: `round(t * sample_rate)`, `delay.rs:108`. -/
def samplesOf (sr t : ℝ) : Nat := ⌊t * sr + 1 / 2⌋₊

/-- The table of `reverb_stereo`: `prelude.rs:1719-1724`. -/
def delayTable : List ℝ := [
  0.073904, 0.052918, 0.066238, 0.066387, 0.037783, 0.080073, 0.050961, 0.075900, 0.043646,
  0.072095, 0.056194, 0.045961, 0.058934, 0.068016, 0.047529, 0.058156, 0.072972, 0.036084,
  0.062715, 0.076377, 0.044339, 0.076725, 0.077884, 0.046126, 0.067741, 0.049800, 0.051709,
  0.082923, 0.070121, 0.079315, 0.055039, 0.081859]

/-- `a = pow(db_amp(-60.0), 0.03 * room_size / 10.0 / time)`: `prelude.rs:1727, 1908`. -/
def loopGain (room time : ℝ) : ℝ := ((10 : ℝ) ^ ((-60 : ℝ) / 20)) ^ (0.03 * room / 10 / time)

/-- `weights = fir3(1.0 - damping).weights() * a`: `prelude.rs:1728`. -/
def dampWeights (damping a : ℝ) : Frame ℝ 3 := fun i => Osc.PluckSt.fir3 (1 - damping) i * a

/-- `reverb_stereo`: `prelude.rs:1712-1742`. -/
def reverbStereo (w : Frame ℝ 3) : Node ℝ 2 2 :=
  pipe (j := 32) (pipe (j := 32) (multiSplit 2 16) (fdn 5 32 (lineNode w))) (binop (i := 32) (j := 0) (· * ·) (panSum 31) (constant 2))

/-- A new `reverb_stereo` at sample rate `sr`. -/
def reverbStereoNew (sr room time damping : ℝ) : (reverbStereo (dampWeights damping (loopGain room time))).σ :=
  (((), fdnNew 5 32 _ (fun i => samplesOf sr (delayTable.getD i.1 0 * room / 10))), panSumNew 31, fun _ => 1 / 16)

/-- The weights of `reverb4_stereo_delays`: `prelude.rs:1910-1917`. -/
def negWeights (a : ℝ) : Frame ℝ 3 := ![-a / 4, -a / 2, -a / 4]

/-- `reverb4_stereo_delays`: `prelude.rs:1902-1932`. -/
def reverb4Stereo (a : ℝ) : Node ℝ 2 2 :=
  pipe (j := 16) (pipe (j := 16) (pipe (j := 2) (pipe (j := 16) (pipe (j := 16) (multiSplit 2 8) (fdn 4 16 (lineNode (negWeights a))))
    (multiJoin 2 7 (fieldAvg ℝ 8))) (multiSplit 2 8)) (fdn 4 16 (lineNode (negWeights a))))
    (binop (i := 16) (j := 0) (· * ·) (panSum 15) (constant 2))

/-- A new `reverb4_stereo_delays` with the delay times `d` in seconds; the gain is that of a room of 10 meters. -/
def reverb4New (sr time : ℝ) (d : Nat → ℝ) : (reverb4Stereo (loopGain 10 time)).σ :=
  ((((((), fdnNew 4 16 _ (fun i => samplesOf sr (d i.1))), ()), ()), fdnNew 4 16 _ (fun i => samplesOf sr (d (16 + i.1)))), panSumNew 15, fun _ => 1 / 4)

/-! ## Modulation effects

The low frequency oscillator (`lfo`, an `Envelope`) is an arbitrary node `L` without inputs. -/

/-- The operations of `Tap` over the reals; `realTapPos` is the clamping of `delay.rs:216-219`. -/
def realTap (minD maxD sr : ℝ) : TapOps ℝ where
  zero := 0
  add := (· + ·)
  pos := realTapPos minD maxD sr
  fl x := ⌊x⌋₊
  frac x := x - ⌊x⌋₊
  spl := Math.spline
  lrp a b t := a + (b - a) * t

/-- `(pass() | lfo(delay_f)) >> tap(minimum_delay, maximum_delay)`: `prelude.rs:2707`. -/
def tapLoop (O : TapOps ℝ) (L : Node ℝ 0 1) : Node ℝ 1 1 := pipe (i := 1) (j := 2) (stack (multiPass 1) L) (tapNode O 1)

/-- `flanger`: `prelude.rs:2699-2710`. -/
def flanger (amount : ℝ) (O : TapOps ℝ) (L : Node ℝ 0 1) : Node ℝ 1 1 :=
  bus (· + ·) (multiPass 1) (feedback2Node 0 (· + ·) id (tapLoop O L) (Shape.shaperNode (Shape.tanhS amount)))

/-- A new flanger at sample rate `sr`; the buffer is that of `Tap::set_sample_rate`, `delay.rs:198-206`. -/
def flangerNew (amount minD maxD sr : ℝ) (L : Node ℝ 0 1) (l : L.σ) : (flanger amount (realTap minD maxD sr) L).σ :=
  ((), (((), l), tapSetup 0 ⌈maxD * sr⌉₊), (), fun _ => 0)

/-- `(pass() | lfo(..)) >> multitap::<U4>(..)`: `prelude.rs:2656-2682`. -/
def tapFour (O : TapOps ℝ) (L : Node ℝ 0 4) : Node ℝ 1 1 := pipe (i := 1) (j := 5) (stack (multiPass 1) L) (tapNode O 4)

/-- `chorus`: `prelude.rs:2649-2684`. -/
def chorus (O : TapOps ℝ) (L : Node ℝ 0 4) : Node ℝ 1 1 :=
  binop (i := 1) (j := 0) (· * ·) (bus (· + ·) (multiPass 1) (tapFour O L)) (constant 1)

/-- A new chorus at sample rate `sr`. -/
def chorusNew (separation variation sr : ℝ) (L : Node ℝ 0 4) (l : L.σ) : (chorus (realTap separation (separation * 4 + variation) sr) L).σ :=
  (((), ((), l), tapSetup 0 ⌈(separation * 4 + variation) * sr⌉₊), fun _ => 0.2)

/-- `add((0.0, 0.1)) >> !allpole()`: `prelude.rs:2730`. -/
def phaserStage : Node ℝ 2 2 := pipe (j := 2) (binop (i := 2) (j := 0) (· + ·) (multiPass 2) (constant 2)) (thru (allpoleNode 1))

/-- The circuit in the feedback loop of `phaser`: `prelude.rs:2729-2731`. -/
def phaserLoop (L : Node ℝ 0 1) : Node ℝ 1 1 :=
  pipe (i := 1) (j := 2) (o := 1) (pipe (i := 1) (j := 2) (stack (multiPass 1) L) (chain 9 phaserStage))
    (stack (i := 1) (j := 1) (o := 1) (p := 0) (binop (i := 1) (j := 0) (· * ·) (multiPass 1) (constant 1)) (sink 1))

/-- `phaser`: `prelude.rs:2723-2733`. -/
def phaser (L : Node ℝ 0 1) : Node ℝ 1 1 := bus (· + ·) (multiPass 1) (feedbackNode 0 (· + ·) id (phaserLoop L))

/-- A new phaser. `Allpole::new` starts with a delay of one sample, `filter.rs:311-321`. -/
def phaserNew (amount : ℝ) (L : Node ℝ 0 1) (l : L.σ) : (phaser L).σ :=
  ((), ((((), l), fun _ => (((), ![0, 0.1]), ⟨0, 0, 0⟩)), ((), fun _ => amount), ()), fun _ => 0)

end Fundsp.Effect
