import Verif.Delay.Line

/-! Delay units: `Tick`, `Delay`, `Tap`, `TapLinear` (`/repo/src/delay.rs`), `Feedback`, `Feedback2`, `FeedbackUnit`
(`/repo/src/feedback.rs`). -/

namespace Fundsp.Delay

/-! ## Tick and Delay -/

/-- `Tick<N>`: `delay.rs:19-52`. The state is the buffered frame. -/
def tickNode {α : Type} (zero : α) (n : Nat) : Node α n n :=
  .ofTick (Frame α n) (fun _ _ => zero) (fun s x => (x, s))

/-- `Delay::tick`: `delay.rs:116-124`. -/
def delayTick {α : Type} (zero : α) (s : Line α) (x : Frame α 1) : Line α × Frame α 1 :=
  let buf := s.buf.set s.i (x 0)
  let i := (s.i + 1) % 2 ^ 64
  let i := if i ≥ buf.length then 0 else i
  (⟨buf, i⟩, fun _ => buf.getD i zero)

/-- `Delay`: `delay.rs:72-138`. -/
def delayNode {α : Type} (zero : α) : Node α 1 1 := .ofTick (Line α) (Line.reset zero) (delayTick zero)

/-- `Delay::set_sample_rate` when the rate changes: `delay.rs:105-113`; `d` is `round(time * sample_rate) as usize`. `resize` followed
by `fill(0.0)` leaves `d + 1` zeros. -/
def delaySetup {α : Type} (zero : α) (d : Nat) : Line α := ⟨List.replicate (d + 1) zero, 0⟩

/-! ## Tap -/

/-- Sample arithmetic of the variable delay lines. `pos` is the clamped delay in samples, `clamp(min, max, x) * sample_rate`
(`delay.rs:217-218`; the SIMD code at `delay.rs:249-253` computes the same with lane-wise `max` and `min`), `fl` its integer part,
`frac` the remainder, `spl` and `lrp` the interpolators (`math.rs`). -/
structure TapOps (α : Type) where
  zero : α
  add : α → α → α
  pos : α → α
  fl : α → Nat
  frac : α → α
  spl : α → α → α → α → α → α
  lrp : α → α → α → α

variable {α : Type}

/-- Indices read by one tap of `Tap::tick`: `delay.rs:221-224`. -/
def tapIdx (i fl mask : Nat) : Nat × Nat × Nat × Nat :=
  let i1 := wsub i fl &&& mask
  ((i1 + 1) % 2 ^ 64 &&& mask, i1, wsub i1 1 &&& mask, wsub i1 2 &&& mask)

/-- Indices read by lane `k` of the SIMD loop: `delay.rs:255-258`; `i` is the write index after the eight writes. -/
def tapIdxSimd (i k fl mask : Nat) : Nat × Nat × Nat × Nat :=
  let i1 := and32 ((i : Int) - ((8 - k : Nat) : Int) - fl) mask
  (and32 ((i1 : Int) + 1) mask, i1, and32 ((i1 : Int) - 1) mask, and32 ((i1 : Int) - 2) mask)

/-- `self.buffer[self.i] = x; self.i = self.i.wrapping_add(1) & mask`. -/
def pushMask (s : Line α) (x : α) : Line α :=
  ⟨s.buf.set s.i x, (s.i + 1) % 2 ^ 64 &&& (s.buf.length - 1)⟩

/-- One interpolated read. -/
def tapRead (O : TapOps α) (buf : List α) (ix : Nat × Nat × Nat × Nat) (delay : α) : α :=
  O.spl (buf.getD ix.1 O.zero) (buf.getD ix.2.1 O.zero) (buf.getD ix.2.2.1 O.zero) (buf.getD ix.2.2.2 O.zero) (O.frac (O.pos delay))

/-- `Tap::tick`: `delay.rs:212-236`. -/
def tapTick (O : TapOps α) (n : Nat) (s : Line α) (x : Frame α (n + 1)) : Line α × Frame α 1 :=
  let mask := s.buf.length - 1
  let buf := s.buf.set s.i (x 0)
  let y := (List.finRange n).foldl
    (fun acc t => O.add acc (tapRead O buf (tapIdx s.i (O.fl (O.pos (x t.succ))) mask) (x t.succ))) O.zero
  (pushMask s (x 0), fun _ => y)

/-- Eight writes: `delay.rs:243-246`. -/
def push8 (s : Line α) (x : Nat → α) : Line α := (List.range 8).foldl (fun s j => pushMask s (x j)) s

/-- One iteration of the SIMD loop of `Tap::process`: `delay.rs:242-277`. -/
def tapItem (O : TapOps α) (n : Nat) (s : Line α) (x : Nat → Frame α (n + 1)) : Line α × (Nat → Frame α 1) :=
  let s8 := push8 s (fun j => x j 0)
  (s8, fun k _ => (List.finRange n).foldl
    (fun acc t => O.add acc (tapRead O s8.buf (tapIdxSimd s8.i k (O.fl (O.pos (x k t.succ))) (s8.buf.length - 1)) (x k t.succ))) O.zero)

/-- `Tap<N>`: `delay.rs:148-290`. -/
def tapNode (O : TapOps α) (n : Nat) : Node α (n + 1) 1 where
  σ := Line α
  reset := Line.reset O.zero
  tick := tapTick O n
  process := simdProcess (tapItem O n) (tapTick O n)

/-- Buffer of `Tap::set_sample_rate`: `delay.rs:203-206`; `c` is `ceil(max_delay * sample_rate)`. -/
def tapSetup (zero : α) (c : Nat) : Line α := ⟨List.replicate (Chan.nextPowerOfTwo (c + 3 + 8)) zero, 0⟩

/-! ## TapLinear -/

/-- `delay.rs:456-457`. -/
def linIdx (i fl mask : Nat) : Nat × Nat :=
  let i1 := wsub i fl &&& mask
  (i1, wsub i1 1 &&& mask)

/-- `delay.rs:482-483`. -/
def linIdxSimd (i k fl mask : Nat) : Nat × Nat :=
  let i1 := and32 ((i : Int) - ((8 - k : Nat) : Int) - fl) mask
  (i1, and32 ((i1 : Int) - 1) mask)

/-- One interpolated read: `delay.rs:458-459`, `484-493`. -/
def linRead (O : TapOps α) (buf : List α) (ix : Nat × Nat) (delay : α) : α :=
  O.lrp (buf.getD ix.1 O.zero) (buf.getD ix.2 O.zero) (O.frac (O.pos delay))

/-- `TapLinear::tick`: `delay.rs:448-463`. -/
def linTick (O : TapOps α) (n : Nat) (s : Line α) (x : Frame α (n + 1)) : Line α × Frame α 1 :=
  let mask := s.buf.length - 1
  let buf := s.buf.set s.i (x 0)
  let y := (List.finRange n).foldl
    (fun acc t => O.add acc (linRead O buf (linIdx s.i (O.fl (O.pos (x t.succ))) mask) (x t.succ))) O.zero
  (pushMask s (x 0), fun _ => y)

/-- One iteration of the SIMD loop of `TapLinear::process`: `delay.rs:469-496`. -/
def linItem (O : TapOps α) (n : Nat) (s : Line α) (x : Nat → Frame α (n + 1)) : Line α × (Nat → Frame α 1) :=
  let s8 := push8 s (fun j => x j 0)
  (s8, fun k _ => (List.finRange n).foldl
    (fun acc t => O.add acc (linRead O s8.buf (linIdxSimd s8.i k (O.fl (O.pos (x k t.succ))) (s8.buf.length - 1)) (x k t.succ))) O.zero)

/-- `TapLinear<N>`: `delay.rs:386-505`. -/
def linNode (O : TapOps α) (n : Nat) : Node α (n + 1) 1 where
  σ := Line α
  reset := Line.reset O.zero
  tick := linTick O n
  process := simdProcess (linItem O n) (linTick O n)

/-- Buffer of `TapLinear::set_sample_rate`: `delay.rs:436-445`. -/
def linSetup (zero : α) (c : Nat) : Line α := ⟨List.replicate (Chan.nextPowerOfTwo (c + 2)) zero, 0⟩

/-! ## Feedback -/

/-- `Feedback::tick`: `feedback.rs:128-133`; `process` (`feedback.rs:135-146`) runs the same computation for each sample, so it is the
default one. `op` is `FrameUnop::frame`. Not modelled: `prevent_denormals`. -/
def feedbackNode {n : Nat} (zero : α) (add : α → α → α) (op : Frame α n → Frame α n) (X : Node α n n) : Node α n n :=
  .ofTick (X.σ × Frame α n) (fun s => (X.reset s.1, fun _ => zero))
    (fun s x =>
      let r := X.tick s.1 (fun c => add (x c) (s.2 c))
      ((r.1, op r.2), r.2))

/-- `Feedback2`: `feedback.rs:164-271`. -/
def feedback2Node {n : Nat} (zero : α) (add : α → α → α) (op : Frame α n → Frame α n) (X Y : Node α n n) : Node α n n :=
  .ofTick (X.σ × Y.σ × Frame α n) (fun s => (X.reset s.1, Y.reset s.2.1, fun _ => zero))
    (fun s x =>
      let r := X.tick s.1 (fun c => add (x c) (s.2.2 c))
      let q := Y.tick s.2.1 r.2
      ((r.1, q.1, op q.2), r.2))

/-! ## FeedbackUnit -/

/-- `FeedbackUnit`: `feedback.rs:275-298`. Simplified: the per-channel feedback buffers are stored as one buffer of frames
(they all have the same length and are indexed alike); the scratch buffers `tick_buffer`, `tick_buffer2` are local. -/
structure FbState {n : Nat} (X : Node α n n) where
  x : X.σ
  line : Line (Frame α n)
  samples : Nat

variable {n : Nat}

/-- `read_index`: `feedback.rs:327-329`. -/
def readIndex (s : Line (Frame α n)) (d : Nat) : Nat :=
  (s.i + (s.buf.length - 1) + 1 - d) &&& (s.buf.length - 1)

/-- `FeedbackUnit::reset`: `feedback.rs:333-339`. -/
def fbReset (zero : α) {X : Node α n n} (s : FbState X) : FbState X :=
  { s with x := X.reset s.x, line := s.line.reset (fun _ => zero) }

/-- `FeedbackUnit::tick`: `feedback.rs:356-367`. -/
def fbTick (zero : α) (add : α → α → α) (X : Node α n n) (s : FbState X) (x : Frame α n) : FbState X × Frame α n :=
  let fb := s.line.buf.getD (readIndex s.line s.samples) (fun _ => zero)
  let r := X.tick s.x (fun c => add (x c) (fb c))
  ({ s with x := r.1,
            line := ⟨s.line.buf.set s.line.i r.2, (s.line.i + 1) &&& (s.line.buf.length - 1)⟩ }, r.2)

/-- `read_i = (read_i + 1) & mask`, `k` times. -/
def advance (mask r : Nat) : Nat → Nat
  | 0 => r
  | k + 1 => (advance mask r k + 1) &&& mask

/-- The writing loop `feedback.rs:384-390`: frames `0 .. size` of the output. -/
def fbWrite (mask : Nat) (out : Nat → Frame α n) : Nat → Nat → Nat → List (Frame α n) → List (Frame α n)
  | _, 0, _, buf => buf
  | k, m + 1, wi, buf => fbWrite mask out (k + 1) m ((wi + 1) &&& mask) (buf.set wi (out k))

/-- The sample-by-sample loop `feedback.rs:393-407`. -/
def fbLoop (zero : α) (add : α → α → α) (X : Node α n n) (mask : Nat) (inp : Buf α n) :
    Nat → Nat → Nat → Nat → X.σ → List (Frame α n) → Buf α n → X.σ × List (Frame α n) × Buf α n
  | _, 0, _, _, sx, buf, out => (sx, buf, out)
  | k, m + 1, ri, wi, sx, buf, out =>
    let r := X.tick sx (fun c => add (inp c k) (buf.getD ri (fun _ => zero) c))
    fbLoop zero add X mask inp (k + 1) m ((ri + 1) &&& mask) ((wi + 1) &&& mask) r.1 (buf.set wi r.2) (setSample k r.2 out)

/-- `FeedbackUnit::process`: `feedback.rs:369-409`. The old contents of the scratch `buffer` beyond the block are arbitrary. -/
def fbProcess (zero : α) (add : α → α → α) (X : Node α n n) (g : Garb α) (s : FbState X) (size : Nat) (inp out : Buf α n) :
    FbState X × Buf α n :=
  let mask := s.line.buf.length - 1
  let idx := (s.line.i + size) &&& mask
  if size ≤ s.samples then
    let r0 := readIndex s.line s.samples
    let b : Buf α n := fun c k =>
      if k < size then add (inp c k) (s.line.buf.getD (advance mask r0 k) (fun _ => zero) c) else g.buf n c k
    let r := X.process g.left s.x size b out
    ({ s with x := r.1, line := ⟨fbWrite mask r.2.frame 0 size s.line.i s.line.buf, idx⟩ }, r.2)
  else
    let r := fbLoop zero add X mask inp 0 size (readIndex s.line s.samples) s.line.i s.x s.line.buf out
    ({ s with x := r.1, line := ⟨r.2.1, idx⟩ }, r.2.2)

/-- `FeedbackUnit`. -/
def fbNode (zero : α) (add : α → α → α) (X : Node α n n) : Node α n n where
  σ := FbState X
  reset := fbReset zero
  tick := fbTick zero add X
  process := fbProcess zero add X

/-- `FeedbackUnit::set_sample_rate` when the rate changes: `feedback.rs:341-354`; `r` is `round(delay * sample_rate)`. -/
def fbSetup (zero : α) {X : Node α n n} (sx : X.σ) (r : Nat) : FbState X :=
  let d := max r 1
  { x := sx, line := ⟨List.replicate (Chan.nextPowerOfTwo d) (fun _ => zero), 0⟩, samples := d }

/-! ## Hadamard -/

/-- Body of the innermost loop, `feedback.rs:41-44`. Arrays are functions of the index. -/
def butterfly {R : Type} [Add R] [Sub R] (h j : Nat) (f : Nat → R) : Nat → R :=
  fun k => if k = j + h then f j - f (j + h) else if k = j then f j + f (j + h) else f k

/-- `for j in j0 .. j0 + m`. -/
def hadJ {R : Type} [Add R] [Sub R] (h : Nat) : Nat → Nat → (Nat → R) → (Nat → R)
  | _, 0, f => f
  | j, m + 1, f => hadJ h (j + 1) m (butterfly h j f)

/-- `while i < N { ...; i += h * 2 }`: `feedback.rs:39-52`. `h = 0` does not occur (it would not terminate). -/
def hadI {R : Type} [Add R] [Sub R] (N h i : Nat) (f : Nat → R) : Nat → R :=
  if hc : i < N ∧ 0 < h then hadI N h (i + h * 2) (hadJ h i h f) else f
termination_by N - i

/-- `while h < N { ...; h *= 2 }`: `feedback.rs:37-54`. -/
def hadH {R : Type} [Add R] [Sub R] (N h : Nat) (f : Nat → R) : Nat → R :=
  if hc : h < N ∧ 0 < h then hadH N (h * 2) (hadI N h 0 f) else f
termination_by N - h

end Fundsp.Delay
