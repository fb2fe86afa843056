import Verif.Route.Latency
import Verif.Filter.Response2

/-! C45 and C68: latency and frequency response of composed units. -/

namespace Fundsp.Route
open _root_.Filter Topology Fundsp.Filter Fundsp.Delay

/-! ## C68: the analysis is sound for every expression -/

/-- Units built with the graph operators from leaves whose analysis is sound, together with their analysis. -/
inductive Routed (θ : ℝ) : {i o : Nat} → {N : Node ℝ i o} → Rt N → Prop
  | leaf {i o : Nat} {N : Node ℝ i o} {R : Rt N} : Sound θ R → Routed θ R
  | filter {N : Node ℝ 1 1} {ok : N.σ → Prop} (lat : ℝ) {H : ℂ} : HasResponse N ok θ H → Routed θ (Rt.filter N ok lat H)
  | arbitrary {i o : Nat} (N : Node ℝ i o) (lat : ℝ) : Routed θ (Rt.arbitrary N lat)
  | generator {i o : Nat} (N : Node ℝ i o) (lat : ℝ) : Routed θ (Rt.generator N lat)
  | unknown {i o : Nat} (N : Node ℝ i o) : Routed θ (Rt.unknown N)
  | distort {i : Nat} (N : Node ℝ (i + 1) 1) (lat : ℝ) : Routed θ (Rt.distort N lat)
  | multiPass (n : Nat) : Routed θ (Rt.multiPass n)
  | sink (n : Nat) : Routed θ (Rt.sink n)
  | constant (n : Nat) (v : Frame ℝ n) : Routed θ (Rt.constant n v)
  | split (n : Nat) : Routed θ (Rt.split n)
  | multiSplit (m n : Nat) : Routed θ (Rt.multiSplit m n)
  | join (n : Nat) : Routed θ (Rt.join n)
  | multiJoin (m n : Nat) : Routed θ (Rt.multiJoin m n)
  | reverse (n : Nat) : Routed θ (Rt.reverse n)
  | pipe {i j o : Nat} {X : Node ℝ i j} {Y : Node ℝ j o} {r : Rt X} {q : Rt Y} : Routed θ r → Routed θ q → Routed θ (r.pipe q)
  | stack {i j o p : Nat} {X : Node ℝ i o} {Y : Node ℝ j p} {r : Rt X} {q : Rt Y} : Routed θ r → Routed θ q → Routed θ (r.stack q)
  | branch {i o p : Nat} {X : Node ℝ i o} {Y : Node ℝ i p} {r : Rt X} {q : Rt Y} : Routed θ r → Routed θ q → Routed θ (r.branch q)
  | bus {i o : Nat} {X Y : Node ℝ i o} {r : Rt X} {q : Rt Y} : Routed θ r → Routed θ q → Routed θ (r.bus q)
  | thru {i o : Nat} {X : Node ℝ i o} {r : Rt X} : Routed θ r → Routed θ r.thru
  | add {i j o : Nat} {X : Node ℝ i o} {Y : Node ℝ j o} {r : Rt X} {q : Rt Y} :
      Routed θ r → Routed θ q → Routed θ (Rt.binop (· + ·) Sig.add r q)
  | sub {i j o : Nat} {X : Node ℝ i o} {Y : Node ℝ j o} {r : Rt X} {q : Rt Y} :
      Routed θ r → Routed θ q → Routed θ (Rt.binop (· - ·) Sig.sub r q)
  | mul {i j o : Nat} {X : Node ℝ i o} {Y : Node ℝ j o} {r : Rt X} {q : Rt Y} :
      Routed θ r → Routed θ q → Routed θ (Rt.binop (· * ·) Sig.mul r q)
  | neg {i o : Nat} {X : Node ℝ i o} {r : Rt X} : Routed θ r → Routed θ (Rt.unop (fun x => -x) Sig.neg r)
  | addScalar (c : ℝ) {i o : Nat} {X : Node ℝ i o} {r : Rt X} : Routed θ r → Routed θ (Rt.unop (fun x => x + c) (Sig.addScalar c) r)
  | negAddScalar (c : ℝ) {i o : Nat} {X : Node ℝ i o} {r : Rt X} : Routed θ r → Routed θ (Rt.unop (fun x => -x + c) (Sig.negAddScalar c) r)
  | mulScalar (c : ℝ) {i o : Nat} {X : Node ℝ i o} {r : Rt X} : Routed θ r → Routed θ (Rt.unop (fun x => x * c) (Sig.mulScalar c) r)
  | multiBus {i o n : Nat} {X : Node ℝ i o} {r : Fin (n + 1) → Rt X} : (∀ q, Routed θ (r q)) → Routed θ (Rt.multiBus r)
  | multiBranch {i o n : Nat} {X : Node ℝ i o} {r : Fin n → Rt X} : (∀ q, Routed θ (r q)) → Routed θ (Rt.multiBranch r)
  | chain {i n : Nat} {X : Node ℝ i i} {r : Fin (n + 1) → Rt X} : (∀ q, Routed θ (r q)) → Routed θ (Rt.chain r)
  | multiStack {i o n : Nat} {X : Node ℝ i o} {r : Fin n → Rt X} : (∀ q, Routed θ (r q)) → (∀ q, Local (r q)) → Routed θ (Rt.multiStack r)
  | reduceAdd {i o n : Nat} {X : Node ℝ i o} {r : Fin (n + 1) → Rt X} :
      (∀ q, Routed θ (r q)) → Local (r 0) → Routed θ (Rt.reduce (· + ·) Sig.add r)
  | reduceMul {i o n : Nat} {X : Node ℝ i o} {r : Fin (n + 1) → Rt X} :
      (∀ q, Routed θ (r q)) → Local (r 0) → Routed θ (Rt.reduce (· * ·) Sig.mul r)

/-- **C68**: in every expression, the signals computed by `route` are true of the sound. `_partial`: units inside `MultiStack` and `Reduce`
must have a route that looks only at its own inputs (`Local`); see `C68_violation`. -/
theorem C68_sound_partial {θ : ℝ} {i o : Nat} {N : Node ℝ i o} {R : Rt N} (h : Routed θ R) : Sound θ R := by
  induction h with
  | leaf h => exact h
  | filter lat h => exact sound_filter h
  | arbitrary N lat => exact sound_arbitrary N lat
  | generator N lat => exact sound_generator N lat
  | unknown N => exact sound_unknown N
  | distort N lat => exact sound_distort N lat
  | multiPass n => exact sound_multiPass n
  | sink n => exact sound_sink n
  | constant n v => exact sound_constant n v
  | split n => exact sound_split n
  | multiSplit m n => exact sound_multiSplit m n
  | join n => exact sound_join n
  | multiJoin m n => exact sound_multiJoin m n
  | reverse n => exact sound_reverse n
  | pipe _ _ h1 h2 => exact sound_pipe h1 h2
  | stack _ _ h1 h2 => exact sound_stack h1 h2
  | branch _ _ h1 h2 => exact sound_branch h1 h2
  | bus _ _ h1 h2 => exact sound_bus h1 h2
  | thru _ h1 => exact sound_thru h1
  | add _ _ h1 h2 => exact sound_binop holds_add h1 h2
  | sub _ _ h1 h2 => exact sound_binop holds_sub h1 h2
  | mul _ _ h1 h2 => exact sound_binop holds_mul h1 h2
  | neg _ h => exact sound_unop holds_neg h
  | addScalar c _ h => exact sound_unop (holds_addScalar c) h
  | negAddScalar c _ h => exact sound_unop (holds_negAddScalar c) h
  | mulScalar c _ h => exact sound_unop (holds_mulScalar c) h
  | multiBus _ h => exact sound_multiBus h
  | multiBranch _ h => exact sound_multiBranch h
  | chain _ h => exact sound_chain h
  | multiStack _ hl h => exact sound_multiStack h hl
  | reduceAdd _ hl h => exact sound_reduce holds_add h hl
  | reduceMul _ hl h => exact sound_reduce holds_mul h hl

/-- **C68**: when `response(output, f)` returns `Some(H)`, and the same sinusoid (of any amplitude and phase, `A`) is fed to all inputs, that
output settles to the sinusoid multiplied by `H`, plus a constant. -/
theorem C68_response_partial {θ : ℝ} {i o : Nat} {N : Node ℝ i o} {R : Rt N} (h : Routed θ R) {output : Fin o} {H : ℂ}
    (hr : R.response output = some H) {s : N.σ} (hs : R.ok s) (A : ℂ) :
    ∃ d : ℝ, Tendsto (fun k => N.ticks.out s (fun t _ => (A * polar θ ^ t).re) k output - (d + (A * H * polar θ ^ k).re)) atTop (𝓝 0) := by
  have hin : HoldsL θ A (chans i (fun _ => Sig.response 1 0)) (fun t (_ : Fin i) => (A * polar θ ^ t).re) :=
    holdsL_chans (fun _ => ⟨0, by rw [mul_one]; exact AsympExp.exact _ _⟩)
  have ho := (C68_sound_partial h s hs A _ _ hin).2 output
  simp only [Rt.response] at hr
  cases hx : (R.route (chans i (fun _ => Sig.response 1 0))).at output <;> rw [hx] at hr ho <;> simp only [Option.some.injEq, reduceCtorEq] at hr
  subst hr
  obtain ⟨d, hd⟩ := ho
  refine ⟨d, hd.congr (fun k => by ring)⟩

/-! ### Routes that read only their own inputs -/

theorem local_filter (N : Node ℝ 1 1) (ok : N.σ → Prop) (l : ℝ) (H : ℂ) : Local (Rt.filter N ok l H) := by
  intro sg _
  simp only [Rt.filter]
  rw [copy_at _ _ _ Nat.zero_lt_one, Nat.zero_add]

theorem local_distort {i : Nat} (N : Node ℝ (i + 1) 1) (l : ℝ) : Local (Rt.distort N l) := by
  intro sg _
  simp only [Rt.distort]
  rw [copy_at _ _ _ (Nat.succ_pos i), Nat.zero_add]

theorem local_pipe {i j o : Nat} {X : Node ℝ i j} {Y : Node ℝ j o} {r : Rt X} {q : Rt Y} (h : Local r) : Local (r.pipe q) := by
  intro sg hs
  simp only [Rt.pipe]
  rw [h sg hs]

theorem local_unop {i o : Nat} {X : Node ℝ i o} {r : Rt X} (op : ℝ → ℝ) (f : Sig → Sig) (h : Local r) : Local (Rt.unop op f r) := by
  intro sg hs
  simp only [Rt.unop]
  rw [h sg hs]

theorem local_bus {i o : Nat} {X Y : Node ℝ i o} {r : Rt X} {q : Rt Y} (h : Local r) (k : Local q) : Local (r.bus q) := by
  intro sg hs
  simp only [Rt.bus]
  rw [h sg hs, k sg hs]

/-- `lowpole() >> (pass() & tick() * 0.5)`: the response is the product of the lowpole response and one plus half the tick response. -/
example (cf : ℝ → ℝ) (c : ℝ) (hc : |c| < 1) (θ : ℝ) (s : LowpoleSt ℝ) (t : Unit) (v : Frame ℝ 1) (hs : s.coeff = c) (A : ℂ) :
    let N := pipe (lowpoleNode cf 0) (bus (· + ·) (multiPass 1) (unop (fun x => x * (1 / 2)) (tickNode (0 : ℝ) 1)))
    ∃ d : ℝ, Tendsto (fun k => N.ticks.out (s, (t, v)) (fun t _ => (A * polar θ ^ t).re) k 0
      - (d + (A * (lowpoleResponse c θ * (1 + tickResponse θ * (1 / 2))) * polar θ ^ k).re)) atTop (𝓝 0) := by
  have h : Routed θ ((Rt.filter (lowpoleNode cf 0) (fun s : LowpoleSt ℝ => s.coeff = c) 0 (lowpoleResponse c θ)).pipe
      ((Rt.multiPass 1).bus (Rt.unop (fun x => x * (1 / 2)) (Sig.mulScalar (1 / 2)) (Rt.filter (tickNode (0 : ℝ) 1) (fun _ => True) 0 (tickResponse θ))))) :=
    .pipe (.filter 0 (C44_lowpole cf c hc θ)) (.bus (.multiPass 1) (.mulScalar _ (.filter 0 (C44_tick θ))))
  refine C68_response_partial h (output := 0) ?_ (s := (s, (t, v))) ⟨hs, trivial, trivial⟩ A
  simp [Rt.response, Rt.pipe, Rt.filter, Rt.bus, Rt.multiPass, Rt.unop, chans, SFrame.at, Sig.filter, Sig.mulScalar, Sig.add, Sig.combineLinear]
  ring

/-- A stack of filters satisfies the condition on `MultiStack`. -/
example (cf : ℝ → ℝ) (c : Fin 5 → ℝ) (hc : ∀ q, |c q| < 1) (θ : ℝ) :
    Routed θ (Rt.multiStack (fun q => Rt.filter (lowpoleNode cf 0) (fun s : LowpoleSt ℝ => s.coeff = c q) 0 (lowpoleResponse (c q) θ))) :=
  .multiStack (fun q => .filter 0 (C44_lowpole cf (c q) (hc q) θ)) (fun _ => local_filter _ _ _ _)

/-- Two joins of two channels side by side, the second pair of channels muted. -/
noncomputable def badStack : Rt (pipe (stack (multiPass 2) (unop (fun x => x * 0) (multiPass 2)))
    (multiStack 2 (join 1 (fieldAvg ℝ 2)))) :=
  ((Rt.multiPass 2).stack (Rt.unop (fun x => x * 0) (Sig.mulScalar 0) (Rt.multiPass 2))).pipe (Rt.multiStack (fun _ => Rt.join 1))

/-- The code violates the full statement of C68: `MultiStack::route` gives the first unit the signals of all units, so for
`(multipass::<U2>() | multipass::<U2>() * 0.0) >> stacki::<U2, _, _>(|_| join::<U2>())` a response of one half is reported at output 0, while that
output equals the input common to all channels. -/
theorem C68_violation :
    badStack.response 0 = some (1 / 2) ∧
      ∀ (s : (pipe (stack (multiPass 2) (unop (fun x => x * 0) (multiPass 2))) (multiStack 2 (join 1 (fieldAvg ℝ 2)))).σ) (x : Nat → ℝ) (k : Nat),
        (pipe (stack (multiPass 2) (unop (fun x => x * 0) (multiPass 2))) (multiStack 2 (join 1 (fieldAvg ℝ 2)))).ticks.out s (fun t _ => x t) k 0 = x k := by
  constructor
  · simp [badStack, Rt.response, Rt.pipe, Rt.stack, Rt.multiPass, Rt.unop, Rt.multiStack, Rt.join, routeJoin, chans, SFrame.at, SFrame.copy,
      Sig.mulScalar, Sig.combineLinear, Sig.scale, List.range_succ, nodeOf, chanOf]
    norm_num
  · intro s x k
    have e0 : (multiIdx (0 : Fin 2) (nodeOf (0 : Fin (1 * 2))).1 (nodeOf (0 : Fin (1 * 2))).2).1 = 0 := by decide
    have e1 : (multiIdx (1 : Fin 2) (nodeOf (0 : Fin (1 * 2))).1 (nodeOf (0 : Fin (1 * 2))).2).1 = 1 := by decide
    simp [Mealy.out, Node.ticks, pipe, stack, multiPass, unop, multiStack, join, fieldAvg, Node.ofTick, Frame.slice, Frame.join, Fin.foldl_succ, e0, e1, Frame.takeL]

/-! ## C45: latency -/

/-- Expressions and their signal paths. Paths are given operator by operator, without reference to `route`. -/
inductive Pathed : {i o : Nat} → {N : Node ℝ i o} → Rt N → Paths i o → Prop
  | leaf {i o : Nat} {N : Node ℝ i o} {R : Rt N} {P : Paths i o} : HasPaths R P → Pathed R P
  | filter (N : Node ℝ 1 1) (ok : N.σ → Prop) (l : ℝ) (H : ℂ) : Pathed (Rt.filter N ok l H) (Paths.first 0 1 l)
  | arbitrary {i o : Nat} (N : Node ℝ i o) : Pathed (Rt.arbitrary N 0) (Paths.all i o 0)
  | generator {i o : Nat} (N : Node ℝ (i + 1) o) (l : ℝ) : Pathed (Rt.generator N l) (Paths.gen (i + 1) o l)
  | unknown {i o : Nat} (N : Node ℝ i o) : Pathed (Rt.unknown N) (Paths.empty i o)
  | distort {i : Nat} (N : Node ℝ (i + 1) 1) (l : ℝ) : Pathed (Rt.distort N l) (Paths.first i 1 l)
  | delay {n : Nat} (N : Node ℝ n n) (l : ℝ) : Pathed (Rt.delay N l) (Paths.par n l)
  | multiPass (n : Nat) : Pathed (Rt.multiPass n) (Paths.wire (fun c b => b = c))
  | sink (n : Nat) : Pathed (Rt.sink n) (Paths.empty n 0)
  | constant (n : Nat) (v : Frame ℝ n) : Pathed (Rt.constant n v) (Paths.empty 0 n)
  | split (n : Nat) : Pathed (Rt.split n) (Paths.wire (fun _ b => b = 0))
  | multiSplit (m n : Nat) : Pathed (Rt.multiSplit (m + 1) n) (Paths.wire (fun c b => b.1 = c.1 % (m + 1)))
  | join (n : Nat) : Pathed (Rt.join n) (Paths.all (n + 1) 1 0)
  | multiJoin (m n : Nat) : Pathed (Rt.multiJoin (m + 1) n) (Paths.wire (fun c b => b.1 % (m + 1) = c.1))
  | reverse (n : Nat) : Pathed (Rt.reverse (n + 1)) (Paths.wire (fun c b => b.1 + c.1 = n))
  | pipe {i j o : Nat} {X : Node ℝ i j} {Y : Node ℝ j o} {r : Rt X} {q : Rt Y} {P : Paths i j} {Q : Paths j o} :
      Pathed r P → Pathed q Q → Pathed (r.pipe q) (P.pipe Q)
  | stack {i j o p : Nat} {X : Node ℝ i o} {Y : Node ℝ j p} {r : Rt X} {q : Rt Y} {P : Paths i o} {Q : Paths j p} :
      Pathed r P → Pathed q Q → Pathed (r.stack q) (P.stack Q)
  | branch {i o p : Nat} {X : Node ℝ i o} {Y : Node ℝ i p} {r : Rt X} {q : Rt Y} {P : Paths i o} {Q : Paths i p} :
      Pathed r P → Pathed q Q → Pathed (r.branch q) (P.branch Q)
  | bus {i o : Nat} {X Y : Node ℝ i o} {r : Rt X} {q : Rt Y} {P Q : Paths i o} : Pathed r P → Pathed q Q → Pathed (r.bus q) (P.bus Q)
  | thru {i o : Nat} {X : Node ℝ i o} {r : Rt X} {P : Paths i o} : Pathed r P → Pathed r.thru P.thru
  | binop {i j o : Nat} {X : Node ℝ i o} {Y : Node ℝ j o} {r : Rt X} {q : Rt Y} {P : Paths i o} {Q : Paths j o} (op : ℝ → ℝ → ℝ)
      {f : Sig → Sig → Sig} (hf : f = Sig.add ∨ f = Sig.sub ∨ f = Sig.mul) :
      Pathed r P → Pathed q Q → Pathed (Rt.binop op f r q) (P.binop Q)
  | unop {i o : Nat} {X : Node ℝ i o} {r : Rt X} {P : Paths i o} (op : ℝ → ℝ) (c : ℝ) {f : Sig → Sig}
      (hf : f = Sig.neg ∨ f = Sig.addScalar c ∨ f = Sig.negAddScalar c ∨ f = Sig.mulScalar c) :
      Pathed r P → Pathed (Rt.unop op f r) P
  | multiBus {i o n : Nat} {X : Node ℝ i o} {r : Fin (n + 1) → Rt X} {P : Fin (n + 1) → Paths i o} :
      (∀ q, Pathed (r q) (P q)) → Pathed (Rt.multiBus r) (Paths.multiBus P)
  | multiBranch {i o n : Nat} {X : Node ℝ i o} {r : Fin n → Rt X} {P : Fin n → Paths i o} :
      (∀ q, Pathed (r q) (P q)) → Pathed (Rt.multiBranch r) (Paths.multiBranch P)
  | multiStack {i o n : Nat} {X : Node ℝ i o} {r : Fin n → Rt X} {P : Fin n → Paths i o} :
      (∀ q, Pathed (r q) (P q)) → (∀ q, Local (r q)) → Pathed (Rt.multiStack r) (Paths.multiStack P)
  | reduce {i o n : Nat} {X : Node ℝ i o} {r : Fin (n + 1) → Rt X} {P : Fin (n + 1) → Paths i o} (op : ℝ → ℝ → ℝ)
      {f : Sig → Sig → Sig} (hf : f = Sig.add ∨ f = Sig.sub ∨ f = Sig.mul) :
      (∀ q, Pathed (r q) (P q)) → Local (r 0) → Pathed (Rt.reduce op f r) (Paths.reduce P)
  | chain {i n : Nat} {X : Node ℝ i i} {r : Fin (n + 1) → Rt X} {P : Fin (n + 1) → Paths i i} :
      (∀ q, Pathed (r q) (P q)) → Pathed (Rt.chain r) (Paths.chain n P)

theorem op2_cases {f : Sig → Sig → Sig} (hf : f = Sig.add ∨ f = Sig.sub ∨ f = Sig.mul) : Op2Lat f := by
  rcases hf with rfl | rfl | rfl
  exacts [op2_add, op2_sub, op2_mul]

theorem op1_cases {c : ℝ} {f : Sig → Sig} (hf : f = Sig.neg ∨ f = Sig.addScalar c ∨ f = Sig.negAddScalar c ∨ f = Sig.mulScalar c) : Op1Lat f := by
  rcases hf with rfl | rfl | rfl | rfl
  exacts [op1_neg, op1_addScalar c, op1_negAddScalar c, op1_mulScalar c]

theorem Pathed.hasPaths {i o : Nat} {N : Node ℝ i o} {R : Rt N} {P : Paths i o} (h : Pathed R P) : HasPaths R P := by
  induction h with
  | leaf h => exact h
  | filter N ok l H => exact paths_filter N ok l H
  | arbitrary N => exact paths_arbitrary N
  | generator N l => exact paths_generator N l
  | unknown N => exact paths_unknown N
  | distort N l => exact paths_distort N l
  | delay N l => exact paths_delay N l
  | multiPass n => exact paths_multiPass n
  | sink n => exact paths_sink n
  | constant n v => exact paths_constant n v
  | split n => exact paths_split n
  | multiSplit m n => exact paths_multiSplit m n
  | join n => exact paths_join n
  | multiJoin m n => exact paths_multiJoin m n
  | reverse n => exact paths_reverse n
  | pipe _ _ h1 h2 => exact paths_pipe h1 h2
  | stack _ _ h1 h2 => exact paths_stack h1 h2
  | branch _ _ h1 h2 => exact paths_branch h1 h2
  | bus _ _ h1 h2 => exact paths_bus h1 h2
  | thru _ h1 => exact paths_thru h1
  | binop op hf _ _ h1 h2 => exact paths_binop (op2_cases hf) op h1 h2
  | unop op c hf _ h1 => exact paths_unop (op1_cases hf) op h1
  | multiBus _ h => exact paths_multiBus h
  | multiBranch _ h => exact paths_multiBranch h
  | multiStack _ hl h => exact paths_multiStack h hl
  | reduce op hf _ hl h => exact paths_reduce (op2_cases hf) op h hl
  | chain _ h => exact paths_chain h

/-- **C45**: `latency()` of an expression is the latency of its quickest signal path, and `None` if nothing but constants and sound of unknown
latency reaches the outputs. `_partial`: see `C45_violation` for generators without inputs and for `Arbitrary` routing with latency, and
`C68_violation` for `Local`. -/
theorem C45_latency_partial {i o : Nat} {N : Node ℝ i o} {R : Rt N} {P : Paths i o} (h : Pathed R P) (ho : 0 < o) :
    match R.latency with
    | some l => (∃ a c, P a c l) ∧ ∀ a c d, P a c d → l ≤ d
    | none => ∀ a c d, ¬ P a c d := by
  have := h.hasPaths.latency ho
  cases hl : R.latency with
  | some l => rw [hl] at this; exact ⟨this.1, fun a c d hd => this.2 ⟨a, c, hd⟩⟩
  | none => rw [hl] at this; exact fun a c d hd => by have h2 : d ∈ P.total := ⟨a, c, hd⟩; rw [show P.total = ∅ from this] at h2; exact h2

/-- **C45, series**: through a single channel, latencies add up. -/
theorem C45_series_partial {i o : Nat} {X : Node ℝ i 1} {Y : Node ℝ 1 o} {r : Rt X} {q : Rt Y} {P : Paths i 1} {Q : Paths 1 o} (hr : Pathed r P)
    (hq : Pathed q Q) (hQ : ∀ c d, ¬ Q none c d) (ho : 0 < o) :
    (r.pipe q).latency = (r.latency.bind fun a => q.latency.map fun b => a + b) := by
  have h1 := hr.hasPaths.latency Nat.zero_lt_one
  have h2 := hq.hasPaths.latency ho
  have h3 := (hr.pipe hq).hasPaths.latency ho
  have hone : ∀ m : Fin 1, m = 0 := fun m => Subsingleton.elim _ _
  refine h3.unique ?_
  have mem : ∀ {x}, x ∈ (P.pipe Q).total ↔ ∃ d1 ∈ P.total, ∃ d2 ∈ Q.total, x = d1 + d2 := by
    intro x
    constructor
    · rintro ⟨a, c, (⟨m, d1, d2, h, k, rfl⟩ | ⟨_, h⟩)⟩
      · exact ⟨d1, ⟨a, m, h⟩, d2, ⟨some m, c, k⟩, rfl⟩
      · exact absurd h (hQ c x)
    · rintro ⟨d1, ⟨a, m, h⟩, d2, ⟨b, c, k⟩, rfl⟩
      cases b with
      | none => exact absurd k (hQ c d2)
      | some b => exact ⟨a, c, Or.inl ⟨m, d1, d2, h, by rwa [hone m, ← hone b], rfl⟩⟩
  cases e1 : r.latency with
  | none =>
    rw [e1] at h1
    refine Set.eq_empty_iff_forall_notMem.2 (fun x hx => ?_)
    obtain ⟨d1, h, _⟩ := mem.1 hx
    rw [show P.total = ∅ from h1] at h; exact h
  | some a =>
    rw [e1] at h1
    cases e2 : q.latency with
    | none =>
      rw [e2] at h2
      refine Set.eq_empty_iff_forall_notMem.2 (fun x hx => ?_)
      obtain ⟨_, _, d2, h, _⟩ := mem.1 hx
      rw [show Q.total = ∅ from h2] at h; exact h
    | some b =>
      rw [e2] at h2
      refine ⟨mem.2 ⟨a, h1.1, b, h2.1, rfl⟩, fun x hx => ?_⟩
      obtain ⟨d1, hd1, d2, hd2, rfl⟩ := mem.1 hx
      exact add_le_add (h1.2 hd1) (h2.2 hd2)

/-- **C45, parallel**: the latency of a stack, branch, bus or arithmetic combination is the smaller one of its parts'; `None` counts as infinite. -/
theorem C45_stack {i j o p : Nat} {X : Node ℝ i o} {Y : Node ℝ j p} {r : Rt X} {q : Rt Y} {P : Paths i o} {Q : Paths j p} (hr : Pathed r P)
    (hq : Pathed q Q) (ho : 0 < o) (hp : 0 < p) : (r.stack q).latency = omin r.latency q.latency := by
  refine ((hr.stack hq).hasPaths.latency (by omega)).unique (((hr.hasPaths.latency ho).union (hq.hasPaths.latency hp)).of_eq ?_ rfl)
  ext x
  constructor
  · rintro (⟨a, c, h⟩ | ⟨a, c, h⟩) <;> cases a with
    | none => first | exact ⟨none, _, Or.inl ⟨c, rfl, Or.inl ⟨rfl, h⟩⟩⟩ | exact ⟨none, _, Or.inr ⟨c, rfl, Or.inl ⟨rfl, h⟩⟩⟩
    | some a => first | exact ⟨_, _, Or.inl ⟨c, rfl, Or.inr ⟨a, rfl, h⟩⟩⟩ | exact ⟨_, _, Or.inr ⟨c, rfl, Or.inr ⟨a, rfl, h⟩⟩⟩
  · rintro ⟨a, c, (⟨c', _, (⟨_, h⟩ | ⟨a', _, h⟩)⟩ | ⟨c', _, (⟨_, h⟩ | ⟨a', _, h⟩)⟩)⟩
    exacts [Or.inl ⟨_, _, h⟩, Or.inl ⟨_, _, h⟩, Or.inr ⟨_, _, h⟩, Or.inr ⟨_, _, h⟩]

theorem C45_branch {i o p : Nat} {X : Node ℝ i o} {Y : Node ℝ i p} {r : Rt X} {q : Rt Y} {P : Paths i o} {Q : Paths i p} (hr : Pathed r P)
    (hq : Pathed q Q) (ho : 0 < o) (hp : 0 < p) : (r.branch q).latency = omin r.latency q.latency := by
  refine ((hr.branch hq).hasPaths.latency (by omega)).unique (((hr.hasPaths.latency ho).union (hq.hasPaths.latency hp)).of_eq ?_ rfl)
  ext x
  constructor
  · rintro (⟨a, c, h⟩ | ⟨a, c, h⟩)
    exacts [⟨a, _, Or.inl ⟨c, rfl, h⟩⟩, ⟨a, _, Or.inr ⟨c, rfl, h⟩⟩]
  · rintro ⟨a, c, (⟨c', _, h⟩ | ⟨c', _, h⟩)⟩
    exacts [Or.inl ⟨_, _, h⟩, Or.inr ⟨_, _, h⟩]

theorem C45_bus {i o : Nat} {X Y : Node ℝ i o} {r : Rt X} {q : Rt Y} {P Q : Paths i o} (hr : Pathed r P) (hq : Pathed q Q) (ho : 0 < o) :
    (r.bus q).latency = omin r.latency q.latency := by
  refine ((hr.bus hq).hasPaths.latency ho).unique (((hr.hasPaths.latency ho).union (hq.hasPaths.latency ho)).of_eq ?_ rfl)
  ext x
  constructor
  · rintro (⟨a, c, h⟩ | ⟨a, c, h⟩)
    exacts [⟨a, c, Or.inl h⟩, ⟨a, c, Or.inr h⟩]
  · rintro ⟨a, c, (h | h)⟩
    exacts [Or.inl ⟨_, _, h⟩, Or.inr ⟨_, _, h⟩]

theorem C45_binop {i j o : Nat} {X : Node ℝ i o} {Y : Node ℝ j o} {r : Rt X} {q : Rt Y} {P : Paths i o} {Q : Paths j o} (op : ℝ → ℝ → ℝ)
    {f : Sig → Sig → Sig} (hf : f = Sig.add ∨ f = Sig.sub ∨ f = Sig.mul) (hr : Pathed r P) (hq : Pathed q Q) (ho : 0 < o) :
    (Rt.binop op f r q).latency = omin r.latency q.latency := by
  refine ((Pathed.binop op hf hr hq).hasPaths.latency ho).unique (((hr.hasPaths.latency ho).union (hq.hasPaths.latency ho)).of_eq ?_ rfl)
  ext x
  constructor
  · rintro (⟨a, c, h⟩ | ⟨a, c, h⟩) <;> cases a with
    | none => first | exact ⟨none, c, Or.inl (Or.inl ⟨rfl, h⟩)⟩ | exact ⟨none, c, Or.inr (Or.inl ⟨rfl, h⟩)⟩
    | some a => first | exact ⟨_, c, Or.inl (Or.inr ⟨a, rfl, h⟩)⟩ | exact ⟨_, c, Or.inr (Or.inr ⟨a, rfl, h⟩)⟩
  · rintro ⟨a, c, ((⟨_, h⟩ | ⟨a', _, h⟩) | (⟨_, h⟩ | ⟨a', _, h⟩))⟩
    exacts [Or.inl ⟨_, _, h⟩, Or.inl ⟨_, _, h⟩, Or.inr ⟨_, _, h⟩, Or.inr ⟨_, _, h⟩]

/-- Two limiters in series and one beside: `(limiter(a) >> limiter(b)) & limiter(c)` has latency `min (a + b) c`. -/
example (L : Node ℝ 1 1) (a b c : ℝ) : (((Rt.delay L a).pipe (Rt.delay L b)).bus (Rt.delay L c)).latency = some (min (a + b) c) := by
  have hl : ∀ l, (Rt.delay L l).latency = some l := fun l => by
    simp [Rt.latency, Rt.delay, minLatency, latencyStep, chans, SFrame.at, Sig.delay]
  rw [C45_bus ((Pathed.delay L a).pipe (.delay L b)) (.delay L c) Nat.zero_lt_one,
    C45_series_partial (.delay L a) (.delay L b) (fun c d h => by cases h.1) Nat.zero_lt_one, hl, hl, hl]
  rfl

/-- The code violates the full statement of C45, twice. A generator without inputs in front of a processor with latency `l` has no latency at all,
because `Routing::route` returns `Unknown` as soon as the input is empty. And a processor with two inputs, latency 1024 and `Arbitrary` routing
(`resynth`), whose inputs have latencies 0 and 4000, is given latency 2048. -/
theorem C45_violation :
    (∀ (G : Node ℝ 0 1) (L : Node ℝ 1 1) (l : ℝ), (Rt.delay L l).latency = some l ∧ ((Rt.generator G 0).pipe (Rt.delay L l)).latency = none) ∧
    (∀ (R : Node ℝ 2 1) (L : Node ℝ 1 1), (Rt.arbitrary R 1024).latency = some 1024 ∧
      (((Rt.multiPass 1).stack (Rt.delay L 4000)).pipe (Rt.arbitrary R 1024)).latency = some 2048) := by
  refine ⟨fun G L l => ⟨?_, ?_⟩, fun R L => ⟨?_, ?_⟩⟩
  · simp [Rt.latency, Rt.delay, minLatency, latencyStep, chans, SFrame.at, Sig.delay]
  · simp [Rt.latency, Rt.delay, Rt.pipe, Rt.generator, routeGenerator, minLatency, latencyStep, chans, SFrame.at, Sig.delay]
  · simp [Rt.latency, Rt.arbitrary, routeArbitrary, minLatency, latencyStep, chans, SFrame.at, Sig.distort, Sig.combineNonlinear, List.range_succ]
  · simp [Rt.latency, Rt.delay, Rt.pipe, Rt.stack, Rt.multiPass, Rt.arbitrary, routeArbitrary, minLatency, latencyStep, chans, SFrame.at,
      SFrame.copy, Sig.distort, Sig.delay, Sig.combineNonlinear, List.range_succ]
    norm_num

end Fundsp.Route
