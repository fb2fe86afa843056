import Verif.Route.Model

/-! C68: soundness of signal flow analysis. Helper lemmas; the property theorems are in `Verif.Route.Props`. -/

namespace Fundsp.Route
open _root_.Filter Topology Fundsp.Filter

/-- Specification. What a signal says about a stream when the analyzed inputs are exponentials of amplitude `A`: a value is the limit of the
stream; a response is the amplitude of the exponential that the stream converges to, up to a constant. -/
def Holds (θ : ℝ) (A : ℂ) : Sig → (Nat → ℝ) → Prop
  | .value v, x => AsympExp (polar θ) 0 v x
  | .response r _, x => ∃ d, AsympExp (polar θ) (A * r) d x
  | _, _ => True

/-- A frame of signals describes the channels of a stream. -/
def HoldsL (θ : ℝ) (A : ℂ) {n : Nat} (sg : SFrame) (x : Nat → Frame ℝ n) : Prop :=
  sg.length = n ∧ ∀ c : Fin n, Holds θ A (sg.at c) (fun k => x k c)

/-- Specification. The analysis of a unit is sound: if the signals given are true of the inputs, those returned are true of the outputs. -/
def Sound (θ : ℝ) {i o : Nat} {N : Node ℝ i o} (R : Rt N) : Prop :=
  ∀ s, R.ok s → ∀ (A : ℂ) (x : Nat → Frame ℝ i) (sg : SFrame), HoldsL θ A sg x → HoldsL θ A (R.route sg) (N.ticks.out s x)

variable {θ : ℝ} {A : ℂ}

theorem chans_length (n : Nat) (f : Nat → Sig) : (chans n f).length = n := by simp [chans]

theorem chans_at {n : Nat} (f : Nat → Sig) {c : Nat} (h : c < n) : (chans n f).at c = f c := by
  simp [chans, SFrame.at, List.getD, h]

theorem holdsL_chans {n : Nat} {f : Nat → Sig} {x : Nat → Frame ℝ n} (h : ∀ c : Fin n, Holds θ A (f c) (fun k => x k c)) :
    HoldsL θ A (chans n f) x :=
  ⟨chans_length n f, fun c => by rw [chans_at f c.2]; exact h c⟩

theorem HoldsL.copyL {i j : Nat} {sg : SFrame} {x : Nat → Frame ℝ (i + j)} (h : HoldsL θ A sg x) :
    HoldsL θ A (sg.copy 0 i) (fun k => (x k).takeL) := by
  refine holdsL_chans (fun c => ?_)
  rw [Nat.zero_add]
  exact h.2 (Fin.castAdd j c)

theorem HoldsL.copyR {i j : Nat} {sg : SFrame} {x : Nat → Frame ℝ (i + j)} (h : HoldsL θ A sg x) :
    HoldsL θ A (sg.copy i j) (fun k => (x k).takeR) :=
  holdsL_chans (fun c => h.2 (Fin.natAdd i c))

theorem HoldsL.slice {i n : Nat} {sg : SFrame} {x : Nat → Frame ℝ (i * n)} (h : HoldsL θ A sg x) (q : Fin n) :
    HoldsL θ A (sg.copy (q.1 * i) i) (fun k => (x k).slice q) := by
  refine holdsL_chans (fun c => ?_)
  rw [show q.1 * i + c.1 = c.1 + q.1 * i from Nat.add_comm _ _]
  exact h.2 (multiIdx c q.1 q.2)

theorem AsympExp.congr' {w A B : ℂ} {c d : ℝ} {x y : ℕ → ℝ} (h : AsympExp w A c x) (e1 : A = B) (e2 : c = d) (e3 : ∀ k, x k = y k) :
    AsympExp w B d y := by
  subst e1 e2
  rwa [show y = x from funext fun k => (e3 k).symm]

/-- Multiplying by a stream that converges. -/
theorem AsympExp.mul_value {θ : ℝ} {A : ℂ} {d v : ℝ} {x y : ℕ → ℝ} (hx : AsympExp (polar θ) A d x) (hy : AsympExp (polar θ) 0 v y) :
    AsympExp (polar θ) (A * v) (d * v) (fun k => x k * y k) := by
  unfold AsympExp at *
  simp only [zero_mul, Complex.zero_re, sub_zero] at hy
  have hb : ∀ k, |d + (A * polar θ ^ k).re| ≤ |d| + ‖A‖ := fun k => by
    refine (abs_add_le _ _).trans ?_
    have h1 : |(A * polar θ ^ k).re| ≤ ‖A * polar θ ^ k‖ := Complex.abs_re_le_norm _
    rw [norm_mul, norm_pow, polar_norm, one_pow, mul_one] at h1
    linarith
  have hy' : Tendsto y atTop (𝓝 v) := by
    have := hy.add_const v; simpa using this
  have h1 := hx.mul hy'
  rw [zero_mul] at h1
  have h2 : Tendsto (fun k => (d + (A * polar θ ^ k).re) * (y k - v)) atTop (𝓝 0) := by
    refine squeeze_zero_norm (a := fun k => (|d| + ‖A‖) * |y k - v|) (fun k => ?_) ?_
    · rw [norm_mul, Real.norm_eq_abs, Real.norm_eq_abs]
      exact mul_le_mul_of_nonneg_right (hb k) (abs_nonneg _)
    · have := (hy.abs).const_mul (|d| + ‖A‖)
      simpa using this
  have h3 := h1.add h2
  rw [add_zero] at h3
  refine h3.congr (fun k => ?_)
  have : (A * (v : ℂ) * polar θ ^ k).re = (A * polar θ ^ k).re * v := by
    rw [show A * (v : ℂ) * polar θ ^ k = (A * polar θ ^ k) * (v : ℂ) by ring, Complex.re_mul_ofReal]
  rw [this]; ring

/-! ### Signals -/

theorem holds_linear (c : ℝ) {a b : Sig} {lat : ℝ} {x y z : Nat → ℝ} {val : ℝ → ℝ → ℝ} {resp : ℂ → ℂ → ℂ}
    (hval : ∀ u v, val u v = u + c * v) (hresp : ∀ u v, resp u v = u + c * v) (hz : ∀ k, z k = x k + c * y k)
    (hx : Holds θ A a x) (hy : Holds θ A b y) : Holds θ A (a.combineLinear b lat val resp) z := by
  cases a <;> cases b <;> simp only [Sig.combineLinear, Holds] at * <;> try trivial
  · refine AsympExp.congr' (hx.add (hy.smul c)) (by ring) (hval _ _).symm (fun k => (hz k).symm)
  · obtain ⟨d, hy⟩ := hy
    exact ⟨_, AsympExp.congr' (hx.add (hy.smul c)) (by rw [hresp]; ring) rfl (fun k => (hz k).symm)⟩
  · obtain ⟨d, hx⟩ := hx
    exact ⟨_, AsympExp.congr' (hx.add (hy.smul c)) (by rw [hresp]; ring) rfl (fun k => (hz k).symm)⟩
  · obtain ⟨d, hx⟩ := hx
    obtain ⟨e, hy⟩ := hy
    exact ⟨_, AsympExp.congr' (hx.add (hy.smul c)) (by rw [hresp]; ring) rfl (fun k => (hz k).symm)⟩

theorem holds_add {a b : Sig} {x y : Nat → ℝ} (hx : Holds θ A a x) (hy : Holds θ A b y) : Holds θ A (a.add b) (fun k => x k + y k) :=
  holds_linear 1 (by intros; ring) (by intros; push_cast; ring) (by intros; ring) hx hy

theorem holds_sub {a b : Sig} {x y : Nat → ℝ} (hx : Holds θ A a x) (hy : Holds θ A b y) : Holds θ A (a.sub b) (fun k => x k - y k) :=
  holds_linear (-1) (by intros; ring) (by intros; push_cast; ring) (by intros; ring) hx hy

theorem holds_mul {a b : Sig} {x y : Nat → ℝ} (hx : Holds θ A a x) (hy : Holds θ A b y) : Holds θ A (a.mul b) (fun k => x k * y k) := by
  cases a <;> cases b <;> simp only [Sig.mul, Holds] at * <;> try trivial
  · exact AsympExp.congr' (AsympExp.mul_value hx hy) (by ring) rfl (fun _ => rfl)
  · obtain ⟨d, hy⟩ := hy
    exact ⟨_, AsympExp.congr' (AsympExp.mul_value hy hx) (by ring) rfl (fun k => mul_comm _ _)⟩
  · obtain ⟨d, hx⟩ := hx
    exact ⟨_, AsympExp.congr' (AsympExp.mul_value hx hy) (by ring) rfl (fun _ => rfl)⟩

theorem holds_affine (c e : ℝ) {a b : Sig} {x z : Nat → ℝ} (hz : ∀ k, z k = c * x k + e) (hx : Holds θ A a x)
    (hb : b = match a with | .value v => .value (c * v + e) | .response r l => .response (c * r) l | s => s) : Holds θ A b z := by
  subst hb
  cases a <;> simp only [Holds] at * <;> try trivial
  · exact AsympExp.congr' ((hx.smul c).add (AsympExp.const _ e)) (by ring) rfl (fun k => (hz k).symm)
  · obtain ⟨d, hx⟩ := hx
    exact ⟨_, AsympExp.congr' ((hx.smul c).add (AsympExp.const _ e)) (by ring) rfl (fun k => (hz k).symm)⟩

theorem holds_neg {a : Sig} {x : Nat → ℝ} (hx : Holds θ A a x) : Holds θ A a.neg (fun k => -x k) :=
  holds_affine (-1) 0 (fun k => by ring) hx (by cases a <;> simp [Sig.neg])
theorem holds_addScalar (e : ℝ) {a : Sig} {x : Nat → ℝ} (hx : Holds θ A a x) : Holds θ A (a.addScalar e) (fun k => x k + e) :=
  holds_affine 1 e (fun k => by ring) hx (by cases a <;> simp [Sig.addScalar])
theorem holds_negAddScalar (e : ℝ) {a : Sig} {x : Nat → ℝ} (hx : Holds θ A a x) : Holds θ A (a.negAddScalar e) (fun k => -x k + e) :=
  holds_affine (-1) e (fun k => by ring) hx (by cases a <;> simp [Sig.negAddScalar])
theorem holds_mulScalar (c : ℝ) {a : Sig} {x : Nat → ℝ} (hx : Holds θ A a x) : Holds θ A (a.mulScalar c) (fun k => x k * c) :=
  holds_affine c 0 (fun k => by ring) hx (by cases a <;> simp [Sig.mulScalar, mul_comm])
theorem holds_scale (c : ℝ) {a : Sig} {x : Nat → ℝ} (hx : Holds θ A a x) : Holds θ A (a.scale c) (fun k => x k * c) :=
  holds_affine c 0 (fun k => by ring) hx (by cases a <;> simp [Sig.scale, mul_comm])

theorem holds_distort (a : Sig) (l : ℝ) (x : Nat → ℝ) : Holds θ A (a.distort l) x := by cases a <;> trivial

theorem holds_nonlinear (a b : Sig) (l : ℝ) (x : Nat → ℝ) : Holds θ A (a.combineNonlinear b l) x := by
  cases a <;> cases b <;> trivial

theorem holds_foldl {n : Nat} {f : Sig → Sig → Sig} {op : ℝ → ℝ → ℝ}
    (hf : ∀ {a b x y}, Holds θ A a x → Holds θ A b y → Holds θ A (f a b) (fun k => op (x k) (y k)))
    {a : Sig} {b : Fin n → Sig} {x : Nat → ℝ} {y : Fin n → Nat → ℝ} (hx : Holds θ A a x) (hy : ∀ q, Holds θ A (b q) (y q)) :
    Holds θ A (Fin.foldl n (fun acc q => f acc (b q)) a) (fun k => Fin.foldl n (fun acc q => op acc (y q k)) (x k)) := by
  induction n with
  | zero => simpa using hx
  | succ n ih =>
    simp only [Fin.foldl_succ_last]
    exact hf (ih (fun q => hy q.castSucc)) (hy _)

/-! ### Combinators -/

variable {i j o p : Nat}

theorem sound_unknownLike {N : Node ℝ i o} {R : Rt N} (h : ∀ sg, (R.route sg).length = o)
    (ht : ∀ sg c, c < o → ∀ x, Holds θ A ((R.route sg).at c) x) (s) (x : Nat → Frame ℝ i) (sg : SFrame) :
    HoldsL θ A (R.route sg) (N.ticks.out s x) := ⟨h sg, fun c => ht sg c c.2 _⟩

theorem sound_arbitrary (N : Node ℝ i o) (lat : ℝ) : Sound θ (Rt.arbitrary N lat) := by
  intro s _ A x sg _
  have hf : ∀ (ys : List Sig) (a : Sig), (∀ z, Holds θ A a z) → ∀ z, Holds θ A (ys.foldl (fun c y => c.combineNonlinear y lat) a) z := by
    intro ys
    induction ys with
    | nil => intro a h; exact h
    | cons y ys ih => intro a _; exact ih _ (holds_nonlinear _ _ _)
  cases sg with
  | nil => exact holdsL_chans (fun _ => trivial)
  | cons a as => exact holdsL_chans (fun _ => hf _ _ (holds_distort _ _) _)

theorem sound_generator (N : Node ℝ i o) (lat : ℝ) : Sound θ (Rt.generator N lat) := by
  intro s _ A x sg _
  simp only [Rt.generator, routeGenerator]
  split <;> exact holdsL_chans (fun _ => trivial)

theorem sound_unknown (N : Node ℝ i o) : Sound θ (Rt.unknown N) := fun _ _ _ _ _ _ => holdsL_chans (fun _ => trivial)

theorem sound_distort (N : Node ℝ (i + 1) 1) (lat : ℝ) : Sound θ (Rt.distort N lat) := by
  intro s _ A x sg _
  refine ⟨rfl, fun c => ?_⟩
  have hc : c = 0 := Subsingleton.elim _ _
  subst hc
  exact holds_distort _ _ _

theorem sound_filter {N : Node ℝ 1 1} {ok : N.σ → Prop} {lat : ℝ} {H : ℂ} (h : HasResponse N ok θ H) : Sound θ (Rt.filter N ok lat H) := by
  intro s hs A x sg hx
  refine ⟨rfl, fun c => ?_⟩
  have hc : c = 0 := Subsingleton.elim _ _
  subst hc
  obtain ⟨G, hG⟩ := h
  have h0 := hx.2 0
  show Holds θ A ((sg.at 0).filter lat (fun r => r * H)) _
  change Holds θ A (sg.at 0) _ at h0
  cases hsg : sg.at 0 <;> rw [hsg] at h0 <;> simp only [Sig.filter, Holds] at * 
  obtain ⟨d, h0⟩ := h0
  exact ⟨_, AsympExp.congr' (hG s x _ d hs h0) (by ring) rfl (fun _ => rfl)⟩

theorem sound_multiPass (n : Nat) : Sound θ (Rt.multiPass n) := fun _ _ _ _ _ h => h
theorem sound_sink (n : Nat) : Sound θ (Rt.sink n) := fun _ _ _ _ _ _ => ⟨rfl, fun c => c.elim0⟩

theorem constant_st (n : Nat) (v : Frame ℝ n) (x : Nat → Frame ℝ 0) (k : Nat) : (constant n : Node ℝ 0 n).ticks.st v x k = v := by
  induction k with
  | zero => rfl
  | succ k ih => simp only [Mealy.st]; rw [ih]; rfl

theorem sound_constant (n : Nat) (v : Frame ℝ n) : Sound θ (Rt.constant n v) := by
  rintro s rfl A x sg _
  refine holdsL_chans (fun c => ?_)
  rw [dif_pos c.2]
  refine AsympExp.congr' (AsympExp.const _ (s c)) rfl rfl (fun k => ?_)
  exact (congrFun (constant_st n s x k) c).symm

theorem sound_split (n : Nat) : Sound θ (Rt.split n) := by
  intro s _ A x sg hx
  have hl := hx.1
  simp only [Rt.split, routeSplit, hl]
  rw [if_neg (by omega)]
  refine holdsL_chans (fun c => ?_)
  rw [Nat.mod_one]
  exact hx.2 0

theorem sound_multiSplit (m n : Nat) : Sound θ (Rt.multiSplit m n) := by
  intro s _ A x sg hx
  have hl := hx.1
  simp only [Rt.multiSplit, routeSplit, hl]
  split
  · exact holdsL_chans (fun _ => trivial)
  · refine holdsL_chans (fun c => ?_)
    exact hx.2 ⟨c.1 % m, Nat.mod_lt _ (by omega)⟩

theorem sound_reverse (n : Nat) : Sound θ (Rt.reverse n) := by
  intro s _ A x sg hx
  have hl := hx.1
  simp only [Rt.reverse, routeReverse, hl]
  split
  · exact holdsL_chans (fun _ => trivial)
  · exact holdsL_chans (fun c => hx.2 ⟨n - 1 - c.1, by omega⟩)

theorem range_foldl_fin {β : Type} (n : Nat) (f : β → Nat → β) (a : β) :
    (List.range n).foldl f a = Fin.foldl n (fun acc q => f acc q.1) a := by
  induction n with
  | zero => simp
  | succ n ih => rw [List.range_succ, List.foldl_append, ih, Fin.foldl_succ_last]; rfl

theorem sound_multiJoin (m n : Nat) : Sound θ (Rt.multiJoin m n) := by
  intro s _ A x sg hx
  have hl := hx.1
  simp only [Rt.multiJoin, routeJoin, hl]
  split
  · exact holdsL_chans (fun _ => trivial)
  · rename_i h0
    have hm : 0 < m := Nat.pos_of_ne_zero (fun h => h0 (by simp [h]))
    refine holdsL_chans (fun c => ?_)
    rw [Nat.mul_div_cancel_left _ hm, Nat.add_sub_cancel, range_foldl_fin]
    have hf := holds_foldl (θ := θ) (A := A) (n := n) (f := Sig.add) (op := (· + ·)) holds_add
      (a := sg.at c) (b := fun q => sg.at (c.1 + (q.1 + 1) * m)) (x := fun k => x k (multiIdx c 0 (by omega)))
      (y := fun q k => x k (multiIdx c (q.1 + 1) (by omega)))
      (by have := hx.2 (multiIdx c 0 (by omega)); simpa [multiIdx] using this) (fun q => hx.2 (multiIdx c (q.1 + 1) (by omega)))
    have hs := holds_scale ((m : ℝ) / ((m * (n + 1) : ℕ) : ℝ)) hf
    refine (congrArg (Holds θ A _) (funext fun k => ?_)).mp hs
    have hm' : (m : ℝ) ≠ 0 := by exact_mod_cast hm.ne'
    have hn' : ((n : ℝ) + 1) ≠ 0 := by positivity
    simp only [Mealy.out, Node.ticks, multiJoin, fieldAvg]
    push_cast
    field_simp

theorem sound_join (n : Nat) : Sound θ (Rt.join n) := by
  intro s _ A x sg hx
  have hl := hx.1
  simp only [Rt.join, routeJoin, hl]
  rw [if_neg (by omega)]
  refine holdsL_chans (fun c => ?_)
  have hc : c = 0 := Subsingleton.elim _ _
  subst hc
  rw [Nat.div_one, Nat.add_sub_cancel, range_foldl_fin]
  have hf := holds_foldl (θ := θ) (A := A) (n := n) (f := Sig.add) (op := (· + ·)) holds_add
    (a := sg.at 0) (b := fun q => sg.at (0 + (q.1 + 1) * 1)) (x := fun k => x k 0)
    (y := fun q k => x k q.succ) (hx.2 0) (fun q => by have := hx.2 q.succ; simpa using this)
  have hs := holds_scale (((1 : ℕ) : ℝ) / ((n + 1 : ℕ) : ℝ)) hf
  refine (congrArg (Holds θ A _) (funext fun k => ?_)).mp hs
  have hn' : ((n : ℝ) + 1) ≠ 0 := by positivity
  simp only [Mealy.out, Node.ticks, join, fieldAvg]
  push_cast
  field_simp

theorem sound_pipe {X : Node ℝ i j} {Y : Node ℝ j o} {r : Rt X} {q : Rt Y} (hr : Sound θ r) (hq : Sound θ q) : Sound θ (r.pipe q) := by
  rintro ⟨s, t⟩ ⟨h1, h2⟩ A x sg hx
  have := hq t h2 A _ _ (hr s h1 A x sg hx)
  rwa [show (pipe X Y).ticks.out (s, t) x = Y.ticks.out t (X.ticks.out s x) from funext fun k => pipe_out X Y s t x k]

theorem holds_join {n m : Nat} {f g : SFrame} {x : Nat → Frame ℝ n} {y : Nat → Frame ℝ m} (hx : HoldsL θ A f x) (hy : HoldsL θ A g y) :
    HoldsL θ A (chans (n + m) (fun c => if c < n then f.at c else g.at (c - n))) (fun k => Frame.join (x k) (y k)) := by
  refine holdsL_chans (fun c => ?_)
  by_cases h : c.1 < n
  · simp only [Frame.join, h, dif_pos, if_true]; exact hx.2 ⟨c.1, h⟩
  · simp only [Frame.join, h, dif_neg, not_false_eq_true, if_false]
    exact hy.2 ⟨c.1 - n, by omega⟩

theorem sound_stack {X : Node ℝ i o} {Y : Node ℝ j p} {r : Rt X} {q : Rt Y} (hr : Sound θ r) (hq : Sound θ q) : Sound θ (r.stack q) := by
  rintro ⟨s, t⟩ ⟨h1, h2⟩ A x sg hx
  rw [show (stack X Y).ticks.out (s, t) x = _ from funext fun k => stack_out X Y s t x k]
  exact holds_join (hr s h1 A _ _ hx.copyL) (hq t h2 A _ _ hx.copyR)

theorem sound_branch {X : Node ℝ i o} {Y : Node ℝ i p} {r : Rt X} {q : Rt Y} (hr : Sound θ r) (hq : Sound θ q) : Sound θ (r.branch q) := by
  rintro ⟨s, t⟩ ⟨h1, h2⟩ A x sg hx
  rw [show (branch X Y).ticks.out (s, t) x = _ from funext fun k => branch_out X Y s t x k]
  exact holds_join (hr s h1 A _ _ hx) (hq t h2 A _ _ hx)

theorem sound_bus {X Y : Node ℝ i o} {r : Rt X} {q : Rt Y} (hr : Sound θ r) (hq : Sound θ q) : Sound θ (r.bus q) := by
  rintro ⟨s, t⟩ ⟨h1, h2⟩ A x sg hx
  rw [show (bus (· + ·) X Y).ticks.out (s, t) x = _ from funext fun k => bus_out (· + ·) X Y s t x k]
  exact holdsL_chans (fun c => holds_add ((hr s h1 A _ _ hx).2 c) ((hq t h2 A _ _ hx).2 c))

theorem sound_thru {X : Node ℝ i o} {r : Rt X} (hr : Sound θ r) : Sound θ r.thru := by
  intro s h1 A x sg hx
  rw [show (thru X).ticks.out s x = _ from funext fun k => thru_out X s x k]
  refine holdsL_chans (fun c => ?_)
  by_cases h : c.1 < o
  · simp only [h, dif_pos, if_true]; exact (hr s h1 A _ _ hx).2 ⟨c.1, h⟩
  · simp only [h, dif_neg, not_false_eq_true, if_false]; exact hx.2 c

/-- The analysis of a binary operator is true of it. -/
def Op2Sound (θ : ℝ) (op : ℝ → ℝ → ℝ) (f : Sig → Sig → Sig) : Prop :=
  ∀ {A : ℂ} {a b : Sig} {x y : Nat → ℝ}, Holds θ A a x → Holds θ A b y → Holds θ A (f a b) (fun k => op (x k) (y k))
def Op1Sound (θ : ℝ) (op : ℝ → ℝ) (f : Sig → Sig) : Prop :=
  ∀ {A : ℂ} {a : Sig} {x : Nat → ℝ}, Holds θ A a x → Holds θ A (f a) (fun k => op (x k))

theorem sound_binop {op : ℝ → ℝ → ℝ} {f : Sig → Sig → Sig} (hf : Op2Sound θ op f) {X : Node ℝ i o} {Y : Node ℝ j o} {r : Rt X} {q : Rt Y}
    (hr : Sound θ r) (hq : Sound θ q) : Sound θ (Rt.binop op f r q) := by
  rintro ⟨s, t⟩ ⟨h1, h2⟩ A x sg hx
  rw [show (binop op X Y).ticks.out (s, t) x = _ from funext fun k => binop_out op X Y s t x k]
  exact holdsL_chans (fun c => hf ((hr s h1 A _ _ hx.copyL).2 c) ((hq t h2 A _ _ hx.copyR).2 c))

theorem sound_unop {op : ℝ → ℝ} {f : Sig → Sig} (hf : Op1Sound θ op f) {X : Node ℝ i o} {r : Rt X} (hr : Sound θ r) :
    Sound θ (Rt.unop op f r) := by
  intro s h1 A x sg hx
  rw [show (unop op X).ticks.out s x = _ from funext fun k => unop_out op X s x k]
  exact holdsL_chans (fun c => hf ((hr s h1 A _ _ hx).2 c))

theorem multiBranch_out (n : Nat) (X : Node ℝ i o) (s w) (k : Nat) :
    (multiBranch n X).ticks.out s w k = fun c => X.ticks.out (s (nodeOf c)) w k (chanOf c) := by
  simp only [Mealy.out]; rw [multiBranch_st]; rfl

theorem multiBus_out (n : Nat) (X : Node ℝ i o) (s w) (k : Nat) (c : Fin o) :
    (multiBus (· + ·) 0 n X).ticks.out s w k c = Fin.foldl n (fun acc q => acc + X.ticks.out (s q.succ) w k c) (X.ticks.out (s 0) w k c) := by
  simp only [Mealy.out]; rw [multiBus_st]
  refine (foldl_channel (fun q c acc => acc + X.ticks.out (s q) w k c) (fun _ => 0) c).trans ?_
  rw [Fin.foldl_succ, zero_add]
  rfl

theorem multiStack_out (n : Nat) (X : Node ℝ i o) (s w) (k : Nat) :
    (multiStack n X).ticks.out s w k = fun c => X.ticks.out (s (nodeOf c)) (fun k => (w k).slice (nodeOf c)) k (chanOf c) := by
  simp only [Mealy.out]; rw [multiStack_st]; rfl

theorem reduce_out (op : ℝ → ℝ → ℝ) (n : Nat) (X : Node ℝ i o) (s w) (k : Nat) (c : Fin o) :
    (reduce op n X).ticks.out s w k c = Fin.foldl n (fun acc q => op acc (X.ticks.out (s q.succ) (fun k => (w k).slice q.succ) k c))
      (X.ticks.out (s 0) (fun k => (w k).slice 0) k c) := by
  simp only [Mealy.out]; rw [reduce_st]
  exact foldl_channel (fun q c acc => op acc (X.ticks.out (s q.succ) (fun k => (w k).slice q.succ) k c)) _ c

theorem sound_multiBranch {X : Node ℝ i o} {n : Nat} {r : Fin n → Rt X} (hr : ∀ q, Sound θ (r q)) : Sound θ (Rt.multiBranch r) := by
  intro s h A x sg hx
  rw [show (multiBranch n X).ticks.out s x = _ from funext fun k => multiBranch_out n X s x k]
  refine holdsL_chans (fun c => ?_)
  rw [dif_pos c.2]
  exact (hr _ _ (h (nodeOf c)) A x sg hx).2 (chanOf c)

theorem sound_multiBus {X : Node ℝ i o} {n : Nat} {r : Fin (n + 1) → Rt X} (hr : ∀ q, Sound θ (r q)) : Sound θ (Rt.multiBus r) := by
  intro s h A x sg hx
  refine holdsL_chans (fun c => ?_)
  have := holds_foldl (θ := θ) (A := A) (f := Sig.add) (op := (· + ·)) holds_add ((hr 0 _ (h 0) A x sg hx).2 c)
    (fun q : Fin n => (hr q.succ _ (h q.succ) A x sg hx).2 c)
  exact (congrArg (Holds θ A _) (funext fun k => (multiBus_out n X s x k c).symm)).mp this

/-- The route of a unit reads only the signals of its own inputs. The first unit of `MultiStack` and `Reduce` is given the signals of all
units, so this is needed there. -/
def Local {i o : Nat} {N : Node ℝ i o} (R : Rt N) : Prop := ∀ sg : SFrame, i ≤ sg.length → R.route sg = R.route (sg.copy 0 i)

theorem sound_multiStack {X : Node ℝ i o} {n : Nat} {r : Fin n → Rt X} (hr : ∀ q, Sound θ (r q)) (hl : ∀ q, Local (r q)) :
    Sound θ (Rt.multiStack r) := by
  intro s h A x sg hx
  rw [show (multiStack n X).ticks.out s x = _ from funext fun k => multiStack_out n X s x k]
  refine holdsL_chans (fun c => ?_)
  rw [dif_pos c.2]
  have hs := (hr _ _ (h (nodeOf c)) A _ _ (hx.slice (nodeOf c))).2 (chanOf c)
  split
  · rename_i h0
    rw [hl _ sg (by rw [hx.1]; exact Nat.le_mul_of_pos_right _ (Nat.lt_of_le_of_lt (Nat.zero_le _) (nodeOf c).2))]
    rwa [h0, Nat.zero_mul] at hs
  · exact hs

theorem sound_reduce {op : ℝ → ℝ → ℝ} {f : Sig → Sig → Sig} (hf : Op2Sound θ op f) {X : Node ℝ i o} {n : Nat} {r : Fin (n + 1) → Rt X}
    (hr : ∀ q, Sound θ (r q)) (hl : Local (r 0)) : Sound θ (Rt.reduce op f r) := by
  intro s h A x sg hx
  refine holdsL_chans (fun c => ?_)
  have h0 := (hr 0 _ (h 0) A _ _ (hx.slice 0)).2 c
  rw [show ((0 : Fin (n + 1)).1 * i) = 0 from Nat.zero_mul i, ← hl sg (by rw [hx.1]; exact Nat.le_mul_of_pos_right _ (Nat.succ_pos n))] at h0
  have := holds_foldl (θ := θ) (A := A) (f := f) (op := op) hf h0
    (fun q : Fin n => (hr q.succ _ (h q.succ) A _ _ (hx.slice q.succ)).2 c)
  exact (congrArg (Holds θ A _) (funext fun k => (reduce_out op n X s x k c).symm)).mp this

theorem sound_chain_aux {X : Node ℝ i i} : ∀ (n : Nat) (r : Fin n → Rt X) (_ : ∀ q, Sound θ (r q)) (s : Fin n → X.σ) (_ : ∀ q, (r q).ok (s q))
    (A : ℂ) (x : Nat → Frame ℝ i) (sg : SFrame), HoldsL θ A sg x →
      HoldsL θ A (Fin.foldl n (fun acc q => (r q).route acc) sg) (chainStream X n s x) := by
  intro n
  induction n with
  | zero => intro r _ s _ A x sg h; simpa [chainStream] using h
  | succ n ih =>
    intro r hr s hs A x sg h
    rw [Fin.foldl_succ]
    exact ih (fun q => r q.succ) (fun q => hr q.succ) (fun q => s q.succ) (fun q => hs q.succ) A _ _ (hr 0 _ (hs 0) A x sg h)

theorem sound_chain {X : Node ℝ i i} {n : Nat} {r : Fin (n + 1) → Rt X} (hr : ∀ q, Sound θ (r q)) : Sound θ (Rt.chain r) := by
  intro s h A x sg hx
  rw [show (chain n X).ticks.out s x = _ from funext fun k => chain_out n X s x k]
  have := sound_chain_aux (n + 1) r hr s h A x sg hx
  rw [Fin.foldl_succ] at this
  exact this

end Fundsp.Route
