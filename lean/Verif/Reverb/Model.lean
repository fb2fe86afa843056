import Verif.Filter.Model
import Verif.Delay.Model
import Mathlib.Analysis.SpecialFunctions.Pow.Real
/-! Allpass loop reverb: `/repo/src/reverb.rs:141-279`. Real arithmetic. The arrays of four diffusers are lists run in order; the loop filter is an
arbitrary mono node `F`. -/

namespace Fundsp.Reverb
open Filter Delay

/-- `Schroeder = AllNest<U1, Delay>`: `reverb.rs:141`. -/
abbrev Sch := AllNestSt (delayNode (0 : ℝ))

/-- The node of one diffuser. -/
noncomputable abbrev schNode : Node ℝ 1 1 := allnestNode (delayNode (0 : ℝ)) 0

/-- `Schroeder::new(coeff, Delay::new(d / DEFAULT_SR))`: `reverb.rs:177-186`; at the default rate the delay is `d` samples. -/
def Sch.new (coeff : ℝ) (d : Nat) : Sch := ⟨delaySetup 0 d, coeff, 0⟩

/-- `filter_mono`: `audionode.rs:246-252` on a diffuser. -/
noncomputable def Sch.tick (s : Sch) (v : ℝ) : Sch × ℝ := ((schNode.tick s (fun _ => v)).1, (schNode.tick s (fun _ => v)).2 0)

/-- `AllNest::reset` on a diffuser. -/
noncomputable def Sch.reset (s : Sch) : Sch := schNode.reset s

/-- `Delay::filter_mono` and `reset`. -/
noncomputable def lineTick (d : Line ℝ) (v : ℝ) : Line ℝ × ℝ := (((delayNode (0 : ℝ)).tick d (fun _ => v)).1, ((delayNode (0 : ℝ)).tick d (fun _ => v)).2 0)

/-- `x[0].filter_mono(v)`, then `x[1].filter_mono` and so on: `reverb.rs:258-262`. -/
noncomputable def chainTick : List Sch → ℝ → List Sch × ℝ
  | [], v => ([], v)
  | s :: l, v =>
    let r := Sch.tick s v
    let t := chainTick l r.2
    (r.1 :: t.1, t.2)

/-- `ReverbBlock`: `reverb.rs:143-150`. -/
structure RBlock (F : Node ℝ 1 1) where
  allpass0 : List Sch
  allpass1 : List Sch
  filter0 : F.σ
  filter1 : F.σ
  delay : Line ℝ

/-- Four diffusers and the loop filter: `reverb.rs:258-262`. -/
noncomputable def halfTick (F : Node ℝ 1 1) (l : List Sch) (f : F.σ) (x : ℝ) : (List Sch × F.σ) × ℝ :=
  let r := chainTick l x
  let t := F.tick f (fun _ => r.2)
  ((r.1, t.1), t.2 0)

/-- The body of the loop over blocks: `reverb.rs:257-269`; returns the block, `output0` and `output1`, the latter being also the new `v0`. -/
noncomputable def RBlock.tick {F : Node ℝ 1 1} (a : ℝ) (b : RBlock F) (v0 input0 input1 : ℝ) : RBlock F × ℝ × ℝ :=
  let d := lineTick b.delay v0
  let h0 := halfTick F b.allpass0 b.filter0 (a * d.2 + input0)
  let h1 := halfTick F b.allpass1 b.filter1 (a * h0.2 + input1)
  (⟨h0.1.1, h1.1.1, h0.1.2, h1.1.2, d.1⟩, h0.2, h1.2)

/-- The loop over blocks: `reverb.rs:256-270`; `o0`, `o1`, `v0` are the mutable variables. -/
noncomputable def blocksTick {F : Node ℝ 1 1} (a input0 input1 : ℝ) : List (RBlock F) → ℝ → ℝ → ℝ → List (RBlock F) × ℝ × ℝ × ℝ
  | [], o0, o1, v0 => ([], o0, o1, v0)
  | b :: l, _, _, v0 =>
    let r := b.tick a v0 input0 input1
    let t := blocksTick a input0 input1 l r.2.1 r.2.2 r.2.2
    (r.1 :: t.1, t.2)

/-- `Reverb`: `reverb.rs:154-159`; `preL` is `pre[0], pre[1]` and `preR` is `pre[2], pre[3]`. -/
structure RevSt (F : Node ℝ 1 1) where
  preL : List Sch
  preR : List Sch
  block : List (RBlock F)
  feedback : ℝ
  a : ℝ

/-- `tick`: `reverb.rs:247-273`. -/
noncomputable def RevSt.tick {F : Node ℝ 1 1} (s : RevSt F) (x : Frame ℝ 2) : RevSt F × Frame ℝ 2 :=
  let p0 := chainTick s.preL (x 0 * 0.5)
  let p1 := chainTick s.preR (x 1 * 0.5)
  let t := blocksTick s.a p0.2 p1.2 s.block 0 0 s.feedback
  (⟨p0.1, p1.1, t.1, t.2.2.2, s.a⟩, ![t.2.1, t.2.2.1])

/-- `reset` of one block: `reverb.rs:218-227`. -/
noncomputable def RBlock.reset {F : Node ℝ 1 1} (b : RBlock F) : RBlock F :=
  ⟨b.allpass0.map Sch.reset, b.allpass1.map Sch.reset, F.reset b.filter0, F.reset b.filter1, Line.reset 0 b.delay⟩

/-- `reset`: `reverb.rs:219-232`. The diffusers `pre` are not reset. -/
noncomputable def RevSt.reset {F : Node ℝ 1 1} (s : RevSt F) : RevSt F := { s with block := s.block.map RBlock.reset, feedback := 0 }

/-- `Reverb`: `reverb.rs:212-279`; `process` is the default one. -/
noncomputable def reverb (F : Node ℝ 1 1) : Node ℝ 2 2 := .ofTick (RevSt F) RevSt.reset RevSt.tick

/-- The tables of `Reverb::new`: `reverb.rs:163-171`, `202`. -/
def ldelays : List Nat := [401, 421, 443, 463, 487, 503, 523, 547, 563, 587, 607, 619, 643, 661, 683, 701, 727,
  743, 761, 787, 809, 823, 839, 863, 883, 907, 929, 947, 967, 983, 1009, 1021]
/-- Delays of the right channel: `reverb.rs:167-170`. -/
def rdelays : List Nat := [419, 433, 457, 479, 491, 509, 541, 557, 577, 593, 613, 631, 653, 673, 691, 719, 733,
  757, 773, 797, 811, 829, 853, 877, 887, 911, 937, 953, 977, 997, 1013, 1033]
/-- Delays of the loop: `reverb.rs:171`. -/
def loopDelays : List Nat := [1087, 1091, 1093, 1097, 1103, 1109, 1117, 1123]

/-- `coeff = lerp(0.5, 0.9, diffusion)`: `reverb.rs:172`. -/
noncomputable def coeffOf (diffusion : ℝ) : ℝ := 0.5 * (1 - diffusion) + 0.9 * diffusion

/-- `a = pow(db_amp(-60.0), 0.035 / time)`: `reverb.rs:199`. -/
noncomputable def gainOf (time : ℝ) : ℝ := ((10 : ℝ) ^ ((-60 : ℝ) / 20)) ^ ((0.035 : ℝ) / time)

/-- `Reverb::new`: `reverb.rs:162-209`. -/
noncomputable def RevSt.new (F : Node ℝ 1 1) (time diffusion : ℝ) (f : F.σ) : RevSt F :=
  let c := coeffOf diffusion
  { preL := [Sch.new c (245 - 1), Sch.new c (367 - 1)]
    preR := [Sch.new c (263 - 1), Sch.new c (349 - 1)]
    block := (List.range 8).map fun i =>
      { allpass0 := (List.range 4).map fun j => Sch.new c (ldelays.getD (i + j * 8) 0 - 1)
        allpass1 := (List.range 4).map fun j => Sch.new c (rdelays.getD (i + j * 8) 0 - 1)
        filter0 := f, filter1 := f
        delay := delaySetup 0 (loopDelays.getD (7 - i) 0) }
    feedback := 0
    a := gainOf time }

end Fundsp.Reverb
