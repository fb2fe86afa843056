import Verif.Route.Sound

/-! C45: latency of composed units. Specification (signal paths) and helper lemmas; the property theorems are in `Verif.Route.Props`. -/

namespace Fundsp.Route

/-- Latency of a signal, if it has one. -/
def lat : Sig → Option ℝ
  | .latency l => some l
  | .response _ l => some l
  | _ => none

def Sig.isResponse : Sig → Prop
  | .response _ _ => True
  | _ => False

/-- Specification. The least element of a set of numbers, or nothing for the empty set. -/
def Least (S : Set ℝ) : Option ℝ → Prop
  | some l => IsLeast S l
  | none => S = ∅

/-- Specification. Signal paths of a unit: `P (some a) c d` if there is a path with latency `d` from input `a` to output `c`, `P none c d` if
there is one from a generator inside the unit. -/
abbrev Paths (i o : Nat) := Option (Fin i) → Fin o → ℝ → Prop

/-- Latencies arriving at output `c` when the inputs have latencies `l`. -/
def arrive {i o : Nat} (P : Paths i o) (l : Fin i → Option ℝ) (c : Fin o) : Set ℝ :=
  {x | P none c x ∨ ∃ a y d, l a = some y ∧ P (some a) c d ∧ x = y + d}

/-- Specification. `route` computes, for every output, the latency of the quickest path; and latencies do not become responses. -/
def HasPaths {i o : Nat} {N : Node ℝ i o} (R : Rt N) (P : Paths i o) : Prop :=
  ∀ sg : SFrame, sg.length = i → (R.route sg).length = o ∧
    (∀ c : Fin o, Least (arrive P (fun a => lat (sg.at a)) c) (lat ((R.route sg).at c))) ∧
    ((∀ a : Fin i, ¬ (sg.at a).isResponse) → ∀ c : Fin o, ¬ ((R.route sg).at c).isResponse)

/-- Minimum of optional numbers. -/
noncomputable def omin : Option ℝ → Option ℝ → Option ℝ
  | some a, some b => some (min a b)
  | some a, none => some a
  | none, b => b

theorem Least.union {S T : Set ℝ} {a b : Option ℝ} (h : Least S a) (k : Least T b) : Least (S ∪ T) (omin a b) := by
  cases a <;> cases b <;> simp only [Least, omin] at *
  · simp [h, k]
  · simpa [h] using k
  · simpa [k] using h
  · exact h.union k

theorem Least.unique {S : Set ℝ} {a b : Option ℝ} (h : Least S a) (k : Least S b) : a = b := by
  cases a <;> cases b <;> simp only [Least] at *
  · exact absurd k.1 (by simp [h])
  · exact absurd h.1 (by simp [k])
  · exact congrArg some (h.unique k)

/-- Sets that dominate each other have the same least element. -/
theorem Least.congr {S T : Set ℝ} {a : Option ℝ} (h : Least S a) (h1 : S ⊆ T) (h2 : ∀ t ∈ T, ∃ s ∈ S, s ≤ t) : Least T a := by
  cases a with
  | none =>
    simp only [Least] at *
    refine Set.eq_empty_iff_forall_notMem.2 (fun t ht => ?_)
    obtain ⟨s, hs, _⟩ := h2 t ht
    simp [h] at hs
  | some l => exact ⟨h1 h.1, fun t ht => by obtain ⟨s, hs, hle⟩ := h2 t ht; exact (h.2 hs).trans hle⟩

theorem Least.of_eq {S T : Set ℝ} {a b : Option ℝ} (h : Least S a) (e : S = T) (e2 : a = b) : Least T b := by subst e e2; exact h

/-! ### Paths of the operators -/

variable {i j o p : Nat}

/-- Series. -/
def Paths.pipe (P : Paths i j) (Q : Paths j o) : Paths i o := fun a c d =>
  (∃ m d1 d2, P a m d1 ∧ Q (some m) c d2 ∧ d = d1 + d2) ∨ (a = none ∧ Q none c d)
/-- Side by side. -/
def Paths.stack (P : Paths i o) (Q : Paths j p) : Paths (i + j) (o + p) := fun a c d =>
  (∃ c', c = Fin.castAdd p c' ∧ ((a = none ∧ P none c' d) ∨ ∃ a', a = some (Fin.castAdd j a') ∧ P (some a') c' d)) ∨
  (∃ c', c = Fin.natAdd o c' ∧ ((a = none ∧ Q none c' d) ∨ ∃ a', a = some (Fin.natAdd i a') ∧ Q (some a') c' d))
/-- Common inputs, separate outputs. -/
def Paths.branch (P : Paths i o) (Q : Paths i p) : Paths i (o + p) := fun a c d =>
  (∃ c', c = Fin.castAdd p c' ∧ P a c' d) ∨ (∃ c', c = Fin.natAdd o c' ∧ Q a c' d)
/-- Common inputs, mixed outputs. -/
def Paths.bus (P Q : Paths i o) : Paths i o := fun a c d => P a c d ∨ Q a c d
/-- Separate inputs, combined outputs. -/
def Paths.binop (P : Paths i o) (Q : Paths j o) : Paths (i + j) o := fun a c d =>
  ((a = none ∧ P none c d) ∨ ∃ a', a = some (Fin.castAdd j a') ∧ P (some a') c d) ∨
  ((a = none ∧ Q none c d) ∨ ∃ a', a = some (Fin.natAdd i a') ∧ Q (some a') c d)
/-- Missing outputs are replaced by inputs. -/
def Paths.thru (P : Paths i o) : Paths i i := fun a c d =>
  (∃ h : c.1 < o, P a ⟨c.1, h⟩ d) ∨ (o ≤ c.1 ∧ a = some c ∧ d = 0)
/-- Every input reaches every output with latency `l`. -/
def Paths.all (i o : Nat) (l : ℝ) : Paths i o := fun a _ d => a ≠ none ∧ d = l
/-- Only the first input reaches the outputs. -/
def Paths.first (i o : Nat) (l : ℝ) : Paths (i + 1) o := fun a _ d => a = some 0 ∧ d = l
/-- Nothing does. -/
def Paths.empty (i o : Nat) : Paths i o := fun _ _ _ => False
/-- Sound is generated inside. -/
def Paths.gen (i o : Nat) (l : ℝ) : Paths i o := fun a _ d => a = none ∧ d = l
/-- Output `c` is copied from the inputs in `f c`. -/
def Paths.wire (f : Fin o → Fin i → Prop) : Paths i o := fun a c d => ∃ b, a = some b ∧ f c b ∧ d = 0

/-- Input `c` reaches output `c` with latency `l`. -/
def Paths.par (n : Nat) (l : ℝ) : Paths n n := fun a c d => a = some c ∧ d = l
/-- Many units with common inputs, mixed. -/
def Paths.multiBus {n : Nat} (P : Fin n → Paths i o) : Paths i o := fun a c d => ∃ q, P q a c d
/-- Many units with common inputs, side by side. -/
def Paths.multiBranch {n : Nat} (P : Fin n → Paths i o) : Paths i (o * n) := fun a c d => P (nodeOf c) a (chanOf c) d
/-- Many units side by side. -/
def Paths.multiStack {n : Nat} (P : Fin n → Paths i o) : Paths (i * n) (o * n) := fun a c d =>
  (a = none ∧ P (nodeOf c) none (chanOf c) d) ∨ ∃ b, a = some (multiIdx b (nodeOf c).1 (nodeOf c).2) ∧ P (nodeOf c) (some b) (chanOf c) d
/-- Many units with separate inputs, combined. -/
def Paths.reduce {n : Nat} (P : Fin n → Paths i o) : Paths (i * n) o := fun a c d =>
  ∃ q, (a = none ∧ P q none c d) ∨ ∃ b, a = some (multiIdx b q.1 q.2) ∧ P q (some b) c d
/-- Many units in series. -/
def Paths.chain : (n : Nat) → (Fin (n + 1) → Paths i i) → Paths i i
  | 0, P => P 0
  | n + 1, P => (P 0).pipe (Paths.chain n (fun q => P q.succ))

/-! ### Signals -/

theorem lat_linear (a b : Sig) (val : ℝ → ℝ → ℝ) (resp : ℂ → ℂ → ℂ) : lat (a.combineLinear b 0 val resp) = omin (lat a) (lat b) := by
  cases a <;> cases b <;> simp [Sig.combineLinear, lat, omin]
theorem lat_add (a b : Sig) : lat (a.add b) = omin (lat a) (lat b) := lat_linear a b _ _
theorem lat_sub (a b : Sig) : lat (a.sub b) = omin (lat a) (lat b) := lat_linear a b _ _
theorem lat_mul (a b : Sig) : lat (a.mul b) = omin (lat a) (lat b) := by
  cases a <;> cases b <;> simp [Sig.mul, lat, omin]
theorem lat_nonlinear (a b : Sig) : lat (a.combineNonlinear b 0) = omin (lat a) (lat b) := by
  cases a <;> cases b <;> simp [Sig.combineNonlinear, Sig.distort, lat, omin]
theorem lat_distort (a : Sig) (l : ℝ) : lat (a.distort l) = (lat a).map (· + l) := by cases a <;> rfl
theorem lat_filter (a : Sig) (l : ℝ) (f : ℂ → ℂ) : lat (a.filter l f) = (lat a).map (· + l) := by cases a <;> rfl
theorem lat_delay (a : Sig) (l : ℝ) : lat (a.delay l) = (lat a).map (· + l) := by cases a <;> rfl
theorem lat_scale (a : Sig) (c : ℝ) : lat (a.scale c) = lat a := by cases a <;> rfl
theorem lat_neg (a : Sig) : lat a.neg = lat a := by cases a <;> rfl
theorem lat_addScalar (c : ℝ) (a : Sig) : lat (a.addScalar c) = lat a := by cases a <;> rfl
theorem lat_negAddScalar (c : ℝ) (a : Sig) : lat (a.negAddScalar c) = lat a := by cases a <;> rfl
theorem lat_mulScalar (c : ℝ) (a : Sig) : lat (a.mulScalar c) = lat a := by cases a <;> rfl

theorem resp_add {a b : Sig} (h : ¬ a.isResponse) (k : ¬ b.isResponse) : ¬ (a.add b).isResponse := by
  cases a <;> cases b <;> simp_all [Sig.add, Sig.combineLinear, Sig.isResponse]
theorem resp_sub {a b : Sig} (h : ¬ a.isResponse) (k : ¬ b.isResponse) : ¬ (a.sub b).isResponse := by
  cases a <;> cases b <;> simp_all [Sig.sub, Sig.combineLinear, Sig.isResponse]
theorem resp_mul {a b : Sig} (h : ¬ a.isResponse) (k : ¬ b.isResponse) : ¬ (a.mul b).isResponse := by
  cases a <;> cases b <;> simp_all [Sig.mul, Sig.isResponse]
theorem resp_nonlinear (a b : Sig) (l : ℝ) : ¬ (a.combineNonlinear b l).isResponse := by
  cases a <;> cases b <;> simp [Sig.combineNonlinear, Sig.distort, Sig.isResponse]
theorem resp_distort (a : Sig) (l : ℝ) : ¬ (a.distort l).isResponse := by cases a <;> simp [Sig.distort, Sig.isResponse]

theorem resp_scale {a : Sig} (c : ℝ) (h : ¬ a.isResponse) : ¬ (a.scale c).isResponse := by
  cases a <;> simp_all [Sig.scale, Sig.isResponse]

/-- A binary operator on signals whose latency is that of the quickest operand. -/
structure Op2Lat (f : Sig → Sig → Sig) : Prop where
  lat : ∀ a b, lat (f a b) = omin (lat a) (lat b)
  resp : ∀ a b, ¬ a.isResponse → ¬ b.isResponse → ¬ (f a b).isResponse
structure Op1Lat (f : Sig → Sig) : Prop where
  lat : ∀ a, lat (f a) = lat a
  resp : ∀ a, ¬ a.isResponse → ¬ (f a).isResponse

theorem op2_add : Op2Lat Sig.add := ⟨lat_add, fun _ _ => resp_add⟩
theorem op2_sub : Op2Lat Sig.sub := ⟨lat_sub, fun _ _ => resp_sub⟩
theorem op2_mul : Op2Lat Sig.mul := ⟨lat_mul, fun _ _ => resp_mul⟩
theorem op1_neg : Op1Lat Sig.neg := ⟨lat_neg, fun a h => by cases a <;> simp_all [Sig.neg, Sig.isResponse]⟩
theorem op1_addScalar (c : ℝ) : Op1Lat (Sig.addScalar c) := ⟨lat_addScalar c, fun a h => by cases a <;> simp_all [Sig.addScalar, Sig.isResponse]⟩
theorem op1_negAddScalar (c : ℝ) : Op1Lat (Sig.negAddScalar c) :=
  ⟨lat_negAddScalar c, fun a h => by cases a <;> simp_all [Sig.negAddScalar, Sig.isResponse]⟩
theorem op1_mulScalar (c : ℝ) : Op1Lat (Sig.mulScalar c) := ⟨lat_mulScalar c, fun a h => by cases a <;> simp_all [Sig.mulScalar, Sig.isResponse]⟩

/-! ### Leaves -/

/-- One path of latency `d` from a signal of latency `l`. -/
theorem least_shift (l : Option ℝ) (d : ℝ) : Least {x | ∃ y, l = some y ∧ x = y + d} (l.map (· + d)) := by
  cases l with
  | none => simp [Least]
  | some y => exact ⟨⟨y, rfl, rfl⟩, by rintro x ⟨z, hz, rfl⟩; cases hz; exact le_refl _⟩

theorem paths_single {N : Node ℝ (i + 1) 1} {R : Rt N} {l : ℝ} (f : Sig → Sig) (hR : ∀ sg, R.route sg = [f (sg.at 0)])
    (hf : ∀ a, lat (f a) = (lat a).map (· + l)) (hr : ∀ a, ¬ a.isResponse → ¬ (f a).isResponse) : HasPaths R (Paths.first i 1 l) := by
  intro sg _
  have hc : ∀ c : Fin 1, c.1 = 0 := fun c => by omega
  refine ⟨by rw [hR]; rfl, fun c => ?_, fun h c => ?_⟩
  · rw [hR, hc c]
    refine (least_shift (lat (sg.at 0)) l).of_eq ?_ (hf _).symm
    ext x
    simp only [arrive, Paths.first, Set.mem_ofPred_eq, reduceCtorEq, false_and, Option.some.injEq, false_or]
    constructor
    · rintro ⟨y, h, rfl⟩; exact ⟨0, y, l, h, ⟨rfl, rfl⟩, rfl⟩
    · rintro ⟨a, y, d, h, ⟨rfl, rfl⟩, rfl⟩; exact ⟨y, h, rfl⟩
  · rw [hR, hc c]; exact hr _ (h 0)

theorem paths_filter (N : Node ℝ 1 1) (ok : N.σ → Prop) (l : ℝ) (H : ℂ) : HasPaths (Rt.filter N ok l H) (Paths.first 0 1 l) :=
  paths_single (fun a => a.filter l (fun r => r * H)) (fun _ => rfl) (fun a => lat_filter a l _)
    (fun a h => by cases a <;> simp_all [Sig.filter, Sig.isResponse])

theorem paths_distort (N : Node ℝ (i + 1) 1) (l : ℝ) : HasPaths (Rt.distort N l) (Paths.first i 1 l) :=
  paths_single (fun a => a.distort l) (fun _ => rfl) (fun a => lat_distort a l) (fun a _ => resp_distort a l)

theorem arrive_empty (l : Fin i → Option ℝ) (c : Fin o) : arrive (Paths.empty i o) l c = ∅ := by
  ext x; simp [arrive, Paths.empty]

theorem paths_unknown (N : Node ℝ i o) : HasPaths (Rt.unknown N) (Paths.empty i o) := by
  intro sg _
  refine ⟨chans_length _ _, fun c => ?_, fun _ c => ?_⟩
  · simp only [Rt.unknown]; rw [chans_at _ c.2, arrive_empty]; rfl
  · simp only [Rt.unknown]; rw [chans_at _ c.2]; simp [Sig.isResponse]

theorem paths_constant (n : Nat) (v : Frame ℝ n) : HasPaths (Rt.constant n v) (Paths.empty 0 n) := by
  intro sg _
  refine ⟨chans_length _ _, fun c => ?_, fun _ c => ?_⟩
  · simp only [Rt.constant]; rw [chans_at _ c.2, arrive_empty, dif_pos c.2]; rfl
  · simp only [Rt.constant]; rw [chans_at _ c.2, dif_pos c.2]; simp [Sig.isResponse]

/-- A generator that has inputs. -/
theorem paths_generator (N : Node ℝ (i + 1) o) (l : ℝ) : HasPaths (Rt.generator N l) (Paths.gen (i + 1) o l) := by
  intro sg hl
  simp only [Rt.generator, routeGenerator, hl, Nat.succ_ne_zero, if_false]
  refine ⟨chans_length _ _, fun c => ?_, fun _ c => ?_⟩
  · rw [chans_at _ c.2]
    refine ⟨Or.inl ⟨rfl, rfl⟩, ?_⟩
    rintro x (⟨_, rfl⟩ | ⟨a, y, d, _, ⟨h, _⟩, _⟩)
    · exact le_refl _
    · cases h
  · rw [chans_at _ c.2]; simp [Sig.isResponse]

/-- A generator without inputs gets no latency from the analysis: `Routing::route` returns at once when the input is empty. -/
theorem paths_generator_zero (N : Node ℝ 0 o) (l : ℝ) : HasPaths (Rt.generator N l) (Paths.empty 0 o) := by
  intro sg hl
  simp only [Rt.generator, routeGenerator, hl, if_true]
  refine ⟨chans_length _ _, fun c => ?_, fun _ c => ?_⟩
  · rw [chans_at _ c.2, arrive_empty]; rfl
  · rw [chans_at _ c.2]; simp [Sig.isResponse]

/-- The latency of a list of signals is the least of theirs. -/
theorem least_foldl (f : Sig → Sig → Sig) (hf : Op2Lat f) : ∀ (n : Nat) (S : Set ℝ) (T : Fin n → Set ℝ) (a : Sig) (b : Fin n → Sig),
    Least S (lat a) → (∀ q, Least (T q) (lat (b q))) →
    Least (S ∪ {x | ∃ q, x ∈ T q}) (lat (Fin.foldl n (fun acc q => f acc (b q)) a)) ∧
      (¬ a.isResponse → (∀ q, ¬ (b q).isResponse) → ¬ (Fin.foldl n (fun acc q => f acc (b q)) a).isResponse) := by
  intro n
  induction n with
  | zero => intro S T a b h _; refine ⟨?_, fun h _ => by simpa using h⟩; simpa using h
  | succ n ih =>
    intro S T a b h hb
    rw [Fin.foldl_succ_last]
    obtain ⟨h1, h2⟩ := ih S (fun q => T q.castSucc) a (fun q => b q.castSucc) h (fun q => hb q.castSucc)
    refine ⟨?_, fun ha hq => hf.resp _ _ (h2 ha (fun q => hq _)) (hq _)⟩
    refine (h1.union (hb (Fin.last n))).of_eq ?_ (hf.lat _ _).symm
    ext x
    simp only [Set.mem_union, Set.mem_ofPred_eq, or_assoc]
    refine or_congr Iff.rfl ⟨?_, ?_⟩
    · rintro (⟨q, h⟩ | h)
      exacts [⟨_, h⟩, ⟨_, h⟩]
    · rintro ⟨q, h⟩
      induction q using Fin.lastCases with
      | last => exact Or.inr h
      | cast q => exact Or.inl ⟨q, h⟩

theorem at_mem (sg : SFrame) (c : Nat) : sg.at c = sg.getD c .unknown := rfl

/-- Units analyzed conservatively, without latency of their own. -/
theorem paths_arbitrary (N : Node ℝ i o) : HasPaths (Rt.arbitrary N 0) (Paths.all i o 0) := by
  intro sg hl
  have key : ∀ (ys : List Sig) (a : Sig) (S : Set ℝ), Least S (lat a) → ¬ a.isResponse →
      Least (S ∪ {x | ∃ y ∈ ys, lat y = some x}) (lat (ys.foldl (fun c y => c.combineNonlinear y 0) a)) ∧
        ¬ (ys.foldl (fun c y => c.combineNonlinear y 0) a).isResponse := by
    intro ys
    induction ys with
    | nil => intro a S h hr; exact ⟨by simpa using h, hr⟩
    | cons y ys ih =>
      intro a S h hr
      have hy : Least {x | lat y = some x} (lat y) := by
        cases hly : lat y with
        | none => simp [Least]
        | some l => exact ⟨rfl, fun x hx => by cases hx; exact le_refl _⟩
      obtain ⟨h1, h2⟩ := ih (a.combineNonlinear y 0) (S ∪ {x | lat y = some x}) ((h.union hy).of_eq rfl (lat_nonlinear a y).symm)
        (resp_nonlinear a y 0)
      refine ⟨h1.of_eq ?_ rfl, h2⟩
      ext x; simp [or_assoc]
  cases sg with
  | nil =>
    subst hl
    simp only [Rt.arbitrary, routeArbitrary]
    refine ⟨chans_length _ _, fun c => ?_, fun _ c => ?_⟩
    · rw [chans_at _ c.2]
      refine Set.eq_empty_iff_forall_notMem.2 ?_
      rintro x (⟨h, _⟩ | ⟨a, _⟩)
      · exact h rfl
      · exact a.elim0
    · rw [chans_at _ c.2]; simp [Sig.isResponse]
  | cons a as =>
    simp only [Rt.arbitrary, routeArbitrary]
    have h0 : Least {x | lat a = some x} (lat (a.distort 0)) := by
      rw [lat_distort]
      cases hly : lat a with
      | none => simp [Least]
      | some l => exact ⟨by simp, fun x hx => by cases hx; simp⟩
    obtain ⟨h1, h2⟩ := key as (a.distort 0) _ h0 (resp_distort a 0)
    refine ⟨chans_length _ _, fun c => ?_, fun _ c => ?_⟩
    · rw [chans_at _ c.2]
      refine h1.of_eq ?_ rfl
      have e : ∀ x, (lat a = some x ∨ ∃ y ∈ as, lat y = some x) ↔ ∃ y ∈ (a :: as), lat y = some x := by simp
      ext x
      simp only [Set.mem_union, Set.mem_ofPred_eq]
      rw [e]
      simp only [arrive, Paths.all, Set.mem_ofPred_eq, ne_eq, not_true_eq_false, false_and, false_or, reduceCtorEq, not_false_eq_true, true_and]
      constructor
      · rintro ⟨y, hy, hx⟩
        obtain ⟨k, hk, rfl⟩ := List.getElem_of_mem hy
        refine ⟨⟨k, hl ▸ hk⟩, x, 0, ?_, rfl, by ring⟩
        rw [SFrame.at, List.getD, List.getElem?_eq_getElem hk]; exact hx
      · rintro ⟨k, y, d, hk, rfl, rfl⟩
        have hk' : k.1 < (a :: as).length := hl ▸ k.2
        refine ⟨(a :: as)[k.1], List.getElem_mem hk', ?_⟩
        rw [SFrame.at, List.getD, List.getElem?_eq_getElem hk'] at hk; rw [add_zero]; exact hk
    · rw [chans_at _ c.2]; exact h2

/-- Wiring units. -/
theorem paths_wire {N : Node ℝ i o} {R : Rt N} (g : Fin o → Fin i)
    (hR : ∀ sg, sg.length = i → (R.route sg).length = o ∧ ∀ c : Fin o, (R.route sg).at c = sg.at (g c)) :
    HasPaths R (Paths.wire (fun c b => b = g c)) := by
  intro sg hl
  obtain ⟨h1, h2⟩ := hR sg hl
  refine ⟨h1, fun c => ?_, fun h c => by rw [h2]; exact h _⟩
  rw [h2]
  refine (least_shift (lat (sg.at (g c))) 0).of_eq ?_ (by simp)
  ext x
  simp only [arrive, Paths.wire, Set.mem_ofPred_eq, Option.some.injEq, reduceCtorEq, false_and, exists_false, false_or]
  constructor
  · rintro ⟨y, h, rfl⟩; exact ⟨g c, y, 0, h, ⟨_, rfl, rfl, rfl⟩, rfl⟩
  · rintro ⟨a, y, d, h, ⟨b, rfl, rfl, rfl⟩, rfl⟩; exact ⟨y, h, rfl⟩

theorem paths_multiPass (n : Nat) : HasPaths (Rt.multiPass n) (Paths.wire (fun c b => b = c)) :=
  paths_wire id (fun _ h => ⟨h, fun _ => rfl⟩)

theorem paths_sink (n : Nat) : HasPaths (Rt.sink n) (Paths.empty n 0) := fun _ _ => ⟨rfl, fun c => c.elim0, fun _ c => c.elim0⟩

theorem paths_split (n : Nat) : HasPaths (Rt.split n) (Paths.wire (fun _ b => b = 0)) :=
  paths_wire (fun _ => 0) (fun sg h => by
    simp only [Rt.split, routeSplit, h, Nat.one_ne_zero, if_false, Nat.mod_one]
    exact ⟨chans_length _ _, fun c => by rw [chans_at _ c.2]; rfl⟩)

theorem paths_multiSplit (m n : Nat) : HasPaths (Rt.multiSplit (m + 1) n)
    (Paths.wire (fun c b => b.1 = c.1 % (m + 1))) := by
  have := paths_wire (R := Rt.multiSplit (m + 1) n) (fun c => ⟨c.1 % (m + 1), Nat.mod_lt _ (Nat.succ_pos m)⟩) (fun sg h => by
    simp only [Rt.multiSplit, routeSplit, h, Nat.succ_ne_zero, if_false]
    exact ⟨chans_length _ _, fun c => by rw [chans_at _ c.2]⟩)
  simpa only [Fin.ext_iff] using this

theorem paths_reverse (n : Nat) : HasPaths (Rt.reverse (n + 1)) (Paths.wire (fun c b => b.1 + c.1 = n)) := by
  have := paths_wire (R := Rt.reverse (n + 1)) (fun c => ⟨n - c.1, by omega⟩) (fun sg h => by
    simp only [Rt.reverse, routeReverse, h, Nat.succ_ne_zero, if_false]
    exact ⟨chans_length _ _, fun c => by rw [chans_at _ c.2]; rfl⟩)
  have e : (fun (c b : Fin (n + 1)) => b.1 + c.1 = n) = (fun c b => b = ⟨n - c.1, by omega⟩) := by
    funext c b; simp only [Fin.ext_iff, eq_iff_iff]; omega
  rw [e]; exact this

theorem paths_multiJoin (m n : Nat) : HasPaths (Rt.multiJoin (m + 1) n) (Paths.wire (fun c b => b.1 % (m + 1) = c.1)) := by
  intro sg hl
  have hne : sg.length ≠ 0 := by rw [hl]; exact Nat.mul_ne_zero (Nat.succ_ne_zero m) (Nat.succ_ne_zero n)
  simp only [Rt.multiJoin, routeJoin, hne, if_false]
  have hb : sg.length / (m + 1) - 1 = n := by rw [hl, Nat.mul_div_cancel_left _ (Nat.succ_pos m)]; rfl
  have one : ∀ a : Sig, Least {x | lat a = some x} (lat a) := by
    intro a
    cases h : lat a with
    | none => simp [Least]
    | some l => exact ⟨rfl, fun x hx => by cases hx; exact le_refl _⟩
  have key := fun c : Nat => least_foldl Sig.add op2_add n {x | lat (sg.at c) = some x}
    (fun q => {x | lat (sg.at (c + (q.1 + 1) * (m + 1))) = some x}) (sg.at c) (fun q => sg.at (c + (q.1 + 1) * (m + 1))) (one _) (fun _ => one _)
  refine ⟨chans_length _ _, fun c => ?_, fun h c => ?_⟩
  · rw [chans_at _ c.2, lat_scale, hb, range_foldl_fin]
    refine (key c).1.of_eq ?_ rfl
    ext x
    simp only [arrive, Paths.wire, Set.mem_union, Set.mem_ofPred_eq, Option.some.injEq, reduceCtorEq, false_and, exists_false, false_or]
    constructor
    · rintro (h | ⟨q, h⟩)
      · exact ⟨⟨c.1, by have := c.2; nlinarith⟩, x, 0, h, ⟨_, rfl, Nat.mod_eq_of_lt c.2, rfl⟩, by ring⟩
      · refine ⟨⟨c.1 + (q.1 + 1) * (m + 1), (multiIdx c (q.1 + 1) (by omega : q.1 + 1 < n + 1)).2⟩, x, 0, h, ⟨_, rfl, ?_, rfl⟩, by ring⟩
        simp [Nat.add_mul_mod_self_right, Nat.mod_eq_of_lt c.2]
    · rintro ⟨a, y, d, h, ⟨b, rfl, hm, rfl⟩, rfl⟩
      have hd := Nat.div_add_mod a.1 (m + 1)
      rw [hm] at hd
      rw [add_zero]
      cases hq : a.1 / (m + 1) with
      | zero => left; rw [hq, Nat.mul_zero, Nat.zero_add] at hd; rw [hd]; exact h
      | succ q =>
        right
        have hlt : a.1 / (m + 1) < n + 1 := (Nat.div_lt_iff_lt_mul (Nat.succ_pos m)).2 (Nat.lt_of_lt_of_eq a.2 (Nat.mul_comm _ _))
        refine ⟨⟨q, by omega⟩, ?_⟩
        rw [show c.1 + (q + 1) * (m + 1) = a.1 by rw [← hd, hq, Nat.mul_comm]; omega]
        exact h
  · rw [chans_at _ c.2, hb, range_foldl_fin]
    have hat : ∀ k, ¬ (sg.at k).isResponse := by
      intro k
      by_cases hk : k < (m + 1) * (n + 1)
      · exact h ⟨k, hk⟩
      · simp [SFrame.at, List.getD, List.getElem?_eq_none (by omega : sg.length ≤ k), Sig.isResponse]
    have := (key c).2 (hat _) (fun _ => hat _)
    exact resp_scale _ this

theorem paths_join (n : Nat) : HasPaths (Rt.join n) (Paths.all (n + 1) 1 0) := by
  intro sg hl
  simp only [Rt.join, routeJoin, hl, Nat.succ_ne_zero, if_false, Nat.div_one, Nat.add_sub_cancel]
  have one : ∀ a : Sig, Least {x | lat a = some x} (lat a) := by
    intro a
    cases h : lat a with
    | none => simp [Least]
    | some l => exact ⟨rfl, fun x hx => by cases hx; exact le_refl _⟩
  have key := fun c : Nat => least_foldl Sig.add op2_add n {x | lat (sg.at c) = some x}
    (fun q => {x | lat (sg.at (c + (q.1 + 1) * 1)) = some x}) (sg.at c) (fun q => sg.at (c + (q.1 + 1) * 1)) (one _) (fun _ => one _)
  have hc : ∀ c : Fin 1, c.1 = 0 := fun c => by omega
  refine ⟨chans_length _ _, fun c => ?_, fun h c => ?_⟩
  · rw [chans_at _ c.2, lat_scale, range_foldl_fin, hc c]
    refine (key 0).1.of_eq ?_ rfl
    ext x
    simp only [arrive, Paths.all, Set.mem_union, Set.mem_ofPred_eq, ne_eq, not_true_eq_false, reduceCtorEq, false_and, false_or,
      not_false_eq_true, true_and, Nat.mul_one, Nat.zero_add]
    constructor
    · rintro (h | ⟨q, h⟩)
      exacts [⟨0, x, 0, h, rfl, by ring⟩, ⟨q.succ, x, 0, h, rfl, by ring⟩]
    · rintro ⟨a, y, d, h, rfl, rfl⟩
      rw [add_zero]
      induction a using Fin.cases with
      | zero => exact Or.inl h
      | succ q => exact Or.inr ⟨q, h⟩
  · rw [chans_at _ c.2, range_foldl_fin, hc c]
    exact resp_scale _ ((key 0).2 (h 0) (fun q => by simpa using h q.succ))

/-! ### Operators -/

variable {N : Node ℝ i o}

theorem paths_pipe {X : Node ℝ i j} {Y : Node ℝ j o} {r : Rt X} {q : Rt Y} {P : Paths i j} {Q : Paths j o} (hr : HasPaths r P)
    (hq : HasPaths q Q) : HasPaths (r.pipe q) (P.pipe Q) := by
  intro sg hl
  obtain ⟨a1, a2, a3⟩ := hr sg hl
  obtain ⟨b1, b2, b3⟩ := hq (r.route sg) a1
  refine ⟨b1, fun c => ?_, fun h => b3 (a3 h)⟩
  refine (b2 c).congr ?_ ?_
  · rintro x (h | ⟨m, y, d, h1, h2, rfl⟩)
    · exact Or.inl (Or.inr ⟨rfl, h⟩)
    · have := a2 m
      beta_reduce at h1
      rw [h1] at this
      rcases this.1 with h | ⟨a, z, e, h3, h4, rfl⟩
      · exact Or.inl (Or.inl ⟨m, y, d, h, h2, rfl⟩)
      · exact Or.inr ⟨a, z, e + d, h3, Or.inl ⟨m, e, d, h4, h2, rfl⟩, by ring⟩
  · have low : ∀ (m : Fin j) (z d2 : ℝ), z ∈ arrive P (fun a => lat (sg.at a)) m → Q (some m) c d2 →
        ∃ s ∈ arrive Q (fun a => lat ((r.route sg).at a)) c, s ≤ z + d2 := by
      intro m z d2 hz h2
      have := a2 m
      cases hlm : lat ((r.route sg).at m) with
      | none => rw [hlm] at this; rw [show arrive P _ m = ∅ from this] at hz; exact hz.elim
      | some y =>
        rw [hlm] at this
        exact ⟨y + d2, Or.inr ⟨m, y, d2, hlm, h2, rfl⟩, by linarith [this.2 hz]⟩
    rintro t (ht | ⟨a, y, d, h1, ht, rfl⟩)
    · rcases ht with ⟨m, d1, d2, h1, h2, rfl⟩ | ⟨_, h⟩
      · exact low m d1 d2 (Or.inl h1) h2
      · exact ⟨t, Or.inl h, le_refl _⟩
    · rcases ht with ⟨m, d1, d2, h3, h2, rfl⟩ | ⟨h, _⟩
      · obtain ⟨s, hs, hle⟩ := low m (y + d1) d2 (Or.inr ⟨a, y, d1, h1, h3, rfl⟩) h2
        exact ⟨s, hs, by linarith⟩
      · cases h

theorem copy_at (sg : SFrame) (a n : Nat) {c : Nat} (h : c < n) : (sg.copy a n).at c = sg.at (a + c) := chans_at _ h

theorem paths_binop {f : Sig → Sig → Sig} (hf : Op2Lat f) (op : ℝ → ℝ → ℝ) {X : Node ℝ i o} {Y : Node ℝ j o} {r : Rt X} {q : Rt Y}
    {P : Paths i o} {Q : Paths j o} (hr : HasPaths r P) (hq : HasPaths q Q) : HasPaths (Rt.binop op f r q) (P.binop Q) := by
  intro sg hl
  obtain ⟨a1, a2, a3⟩ := hr (sg.copy 0 i) (chans_length _ _)
  obtain ⟨b1, b2, b3⟩ := hq (sg.copy i j) (chans_length _ _)
  refine ⟨chans_length _ _, fun c => ?_, fun h c => ?_⟩
  · simp only [Rt.binop]
    rw [chans_at _ c.2]
    refine ((a2 c).union (b2 c)).of_eq ?_ (hf.lat _ _).symm
    ext x
    constructor
    · rintro ((h | ⟨a, y, d, h1, h2, rfl⟩) | (h | ⟨a, y, d, h1, h2, rfl⟩))
      · exact Or.inl (Or.inl (Or.inl ⟨rfl, h⟩))
      · beta_reduce at h1
        rw [copy_at _ _ _ a.2, Nat.zero_add] at h1
        exact Or.inr ⟨Fin.castAdd j a, y, d, h1, Or.inl (Or.inr ⟨a, rfl, h2⟩), rfl⟩
      · exact Or.inl (Or.inr (Or.inl ⟨rfl, h⟩))
      · beta_reduce at h1
        rw [copy_at _ _ _ a.2] at h1
        exact Or.inr ⟨Fin.natAdd i a, y, d, h1, Or.inr (Or.inr ⟨a, rfl, h2⟩), rfl⟩
    · rintro (h | ⟨a, y, d, h1, h2, rfl⟩)
      · rcases h with (⟨_, h⟩ | ⟨a, h, _⟩) | (⟨_, h⟩ | ⟨a, h, _⟩)
        · exact Or.inl (Or.inl h)
        · cases h
        · exact Or.inr (Or.inl h)
        · cases h
      · rcases h2 with (⟨h, _⟩ | ⟨b, hb, h⟩) | (⟨h, _⟩ | ⟨b, hb, h⟩)
        · cases h
        · cases hb
          refine Or.inl (Or.inr ⟨b, y, d, ?_, h, rfl⟩)
          beta_reduce
          rw [copy_at _ _ _ b.2, Nat.zero_add]; exact h1
        · cases h
        · cases hb
          refine Or.inr (Or.inr ⟨b, y, d, ?_, h, rfl⟩)
          beta_reduce
          rw [copy_at _ _ _ b.2]; exact h1
  · simp only [Rt.binop]
    rw [chans_at _ c.2]
    refine hf.resp _ _ (a3 (fun a => ?_) c) (b3 (fun a => ?_) c)
    · rw [copy_at _ _ _ a.2, Nat.zero_add]; exact h (Fin.castAdd j a)
    · rw [copy_at _ _ _ a.2]; exact h (Fin.natAdd i a)

theorem paths_unop {f : Sig → Sig} (hf : Op1Lat f) (op : ℝ → ℝ) {X : Node ℝ i o} {r : Rt X} {P : Paths i o} (hr : HasPaths r P) :
    HasPaths (Rt.unop op f r) P := by
  intro sg hl
  obtain ⟨a1, a2, a3⟩ := hr sg hl
  refine ⟨chans_length _ _, fun c => ?_, fun h c => ?_⟩
  · simp only [Rt.unop]; rw [chans_at _ c.2, hf.lat]; exact a2 c
  · simp only [Rt.unop]; rw [chans_at _ c.2]; exact hf.resp _ (a3 h c)

theorem paths_bus {X Y : Node ℝ i o} {r : Rt X} {q : Rt Y} {P Q : Paths i o} (hr : HasPaths r P) (hq : HasPaths q Q) :
    HasPaths (r.bus q) (P.bus Q) := by
  intro sg hl
  obtain ⟨a1, a2, a3⟩ := hr sg hl
  obtain ⟨b1, b2, b3⟩ := hq sg hl
  refine ⟨chans_length _ _, fun c => ?_, fun h c => ?_⟩
  · simp only [Rt.bus]
    rw [chans_at _ c.2]
    refine ((a2 c).union (b2 c)).of_eq ?_ (lat_add _ _).symm
    ext x
    constructor
    · rintro ((h | ⟨a, y, d, h1, h2, h3⟩) | (h | ⟨a, y, d, h1, h2, h3⟩))
      · exact Or.inl (Or.inl h)
      · exact Or.inr ⟨a, y, d, h1, Or.inl h2, h3⟩
      · exact Or.inl (Or.inr h)
      · exact Or.inr ⟨a, y, d, h1, Or.inr h2, h3⟩
    · rintro ((h | h) | ⟨a, y, d, h1, (h2 | h2), h3⟩)
      · exact Or.inl (Or.inl h)
      · exact Or.inr (Or.inl h)
      · exact Or.inl (Or.inr ⟨a, y, d, h1, h2, h3⟩)
      · exact Or.inr (Or.inr ⟨a, y, d, h1, h2, h3⟩)
  · simp only [Rt.bus]; rw [chans_at _ c.2]; exact resp_add (a3 h c) (b3 h c)

theorem paths_branch {X : Node ℝ i o} {Y : Node ℝ i p} {r : Rt X} {q : Rt Y} {P : Paths i o} {Q : Paths i p} (hr : HasPaths r P)
    (hq : HasPaths q Q) : HasPaths (r.branch q) (P.branch Q) := by
  intro sg hl
  obtain ⟨a1, a2, a3⟩ := hr sg hl
  obtain ⟨b1, b2, b3⟩ := hq sg hl
  refine ⟨chans_length _ _, fun c => ?_, fun h c => ?_⟩ <;> simp only [Rt.branch] <;> rw [chans_at _ c.2] <;>
    refine Fin.addCases (fun c => ?_) (fun c => ?_) c
  · simp only [Fin.val_castAdd, c.2, if_true]
    refine (a2 c).of_eq ?_ rfl
    have e : ∀ a d, P.branch Q a (Fin.castAdd p c) d ↔ P a c d := by
      intro a d
      constructor
      · rintro (⟨c', h, k⟩ | ⟨c', h, _⟩)
        · rwa [Fin.castAdd_injective _ _ h]
        · have := congrArg Fin.val h; simp at this; omega
      · exact fun h => Or.inl ⟨c, rfl, h⟩
    simp only [arrive, e]
  · simp only [Fin.val_natAdd, Nat.not_lt.2 (Nat.le_add_right o c.1), if_false, Nat.add_sub_cancel_left]
    refine (b2 c).of_eq ?_ rfl
    have e : ∀ a d, P.branch Q a (Fin.natAdd o c) d ↔ Q a c d := by
      intro a d
      constructor
      · rintro (⟨c', h, _⟩ | ⟨c', h, k⟩)
        · have := congrArg Fin.val h; simp at this; omega
        · have : c = c' := Fin.ext (by have := congrArg Fin.val h; simpa using this)
          rwa [this]
      · exact fun h => Or.inr ⟨c, rfl, h⟩
    simp only [arrive, e]
  · simp only [Fin.val_castAdd, c.2, if_true]; exact a3 h c
  · simp only [Fin.val_natAdd, Nat.not_lt.2 (Nat.le_add_right o c.1), if_false, Nat.add_sub_cancel_left]; exact b3 h c

theorem paths_stack {X : Node ℝ i o} {Y : Node ℝ j p} {r : Rt X} {q : Rt Y} {P : Paths i o} {Q : Paths j p} (hr : HasPaths r P)
    (hq : HasPaths q Q) : HasPaths (r.stack q) (P.stack Q) := by
  intro sg hl
  obtain ⟨a1, a2, a3⟩ := hr (sg.copy 0 i) (chans_length _ _)
  obtain ⟨b1, b2, b3⟩ := hq (sg.copy i j) (chans_length _ _)
  refine ⟨chans_length _ _, fun c => ?_, fun h c => ?_⟩ <;> simp only [Rt.stack] <;> rw [chans_at _ c.2] <;>
    refine Fin.addCases (fun c => ?_) (fun c => ?_) c
  · simp only [Fin.val_castAdd, c.2, if_true]
    refine (a2 c).of_eq ?_ rfl
    have inj : ∀ c' : Fin o, Fin.castAdd p c = Fin.castAdd p c' → c' = c := fun c' h => (Fin.castAdd_injective _ _ h).symm
    have dis : ∀ c' : Fin p, Fin.castAdd p c ≠ Fin.natAdd o c' := fun c' h => by have := congrArg Fin.val h; simp at this; omega
    ext x
    constructor
    · rintro (h | ⟨a, y, d, h1, h2, rfl⟩)
      · exact Or.inl (Or.inl ⟨c, rfl, Or.inl ⟨rfl, h⟩⟩)
      · beta_reduce at h1
        rw [copy_at _ _ _ a.2, Nat.zero_add] at h1
        exact Or.inr ⟨Fin.castAdd j a, y, d, h1, Or.inl ⟨c, rfl, Or.inr ⟨a, rfl, h2⟩⟩, rfl⟩
    · rintro (h | ⟨a, y, d, h1, h2, rfl⟩)
      · rcases h with ⟨c', hc, (⟨_, h⟩ | ⟨_, h, _⟩)⟩ | ⟨c', hc, _⟩
        · rw [inj c' hc] at h; exact Or.inl h
        · cases h
        · exact absurd hc (dis c')
      · rcases h2 with ⟨c', hc, (⟨h, _⟩ | ⟨b, hb, h⟩)⟩ | ⟨c', hc, _⟩
        · cases h
        · cases hb
          rw [inj c' hc] at h
          refine Or.inr ⟨b, y, d, ?_, h, rfl⟩
          beta_reduce
          rw [copy_at _ _ _ b.2, Nat.zero_add]; exact h1
        · exact absurd hc (dis c')
  · simp only [Fin.val_natAdd, Nat.not_lt.2 (Nat.le_add_right o c.1), if_false, Nat.add_sub_cancel_left]
    refine (b2 c).of_eq ?_ rfl
    have inj : ∀ c' : Fin p, Fin.natAdd o c = Fin.natAdd o c' → c' = c := fun c' h =>
      Fin.ext (by have := congrArg Fin.val h; simp at this; omega)
    have dis : ∀ c' : Fin o, Fin.natAdd o c ≠ Fin.castAdd p c' := fun c' h => by have := congrArg Fin.val h; simp at this; omega
    ext x
    constructor
    · rintro (h | ⟨a, y, d, h1, h2, rfl⟩)
      · exact Or.inl (Or.inr ⟨c, rfl, Or.inl ⟨rfl, h⟩⟩)
      · beta_reduce at h1
        rw [copy_at _ _ _ a.2] at h1
        exact Or.inr ⟨Fin.natAdd i a, y, d, h1, Or.inr ⟨c, rfl, Or.inr ⟨a, rfl, h2⟩⟩, rfl⟩
    · rintro (h | ⟨a, y, d, h1, h2, rfl⟩)
      · rcases h with ⟨c', hc, _⟩ | ⟨c', hc, (⟨_, h⟩ | ⟨_, h, _⟩)⟩
        · exact absurd hc (dis c')
        · rw [inj c' hc] at h; exact Or.inl h
        · cases h
      · rcases h2 with ⟨c', hc, _⟩ | ⟨c', hc, (⟨h, _⟩ | ⟨b, hb, h⟩)⟩
        · exact absurd hc (dis c')
        · cases h
        · cases hb
          rw [inj c' hc] at h
          refine Or.inr ⟨b, y, d, ?_, h, rfl⟩
          beta_reduce
          rw [copy_at _ _ _ b.2]; exact h1
  · simp only [Fin.val_castAdd, c.2, if_true]
    exact a3 (fun a => by rw [copy_at _ _ _ a.2, Nat.zero_add]; exact h (Fin.castAdd j a)) c
  · simp only [Fin.val_natAdd, Nat.not_lt.2 (Nat.le_add_right o c.1), if_false, Nat.add_sub_cancel_left]
    exact b3 (fun a => by rw [copy_at _ _ _ a.2]; exact h (Fin.natAdd i a)) c

theorem paths_thru {X : Node ℝ i o} {r : Rt X} {P : Paths i o} (hr : HasPaths r P) : HasPaths r.thru P.thru := by
  intro sg hl
  obtain ⟨a1, a2, a3⟩ := hr sg hl
  refine ⟨chans_length _ _, fun c => ?_, fun h c => ?_⟩ <;> simp only [Rt.thru] <;> rw [chans_at _ c.2] <;> by_cases hc : c.1 < o
  · simp only [hc, if_true]
    refine (a2 ⟨c.1, hc⟩).of_eq ?_ rfl
    have e : ∀ a d, P.thru a c d ↔ P a ⟨c.1, hc⟩ d := fun a d =>
      ⟨fun h => by rcases h with ⟨_, h⟩ | ⟨h, _⟩; exacts [h, by omega], fun h => Or.inl ⟨hc, h⟩⟩
    simp only [arrive, e]
  · simp only [hc, if_false]
    refine (least_shift (lat (sg.at c)) 0).of_eq ?_ (by simp)
    ext x
    constructor
    · rintro ⟨y, h, rfl⟩; exact Or.inr ⟨c, y, 0, h, Or.inr ⟨by omega, rfl, rfl⟩, rfl⟩
    · rintro (h | ⟨a, y, d, h1, h2, rfl⟩)
      · rcases h with ⟨h, _⟩ | ⟨_, h, _⟩
        · exact absurd h hc
        · cases h
      · rcases h2 with ⟨h, _⟩ | ⟨_, h, rfl⟩
        · exact absurd h hc
        · cases h; exact ⟨y, h1, rfl⟩
  · simp only [hc, if_true]; exact a3 h ⟨c.1, hc⟩
  · simp only [hc, if_false]; exact h c

theorem paths_delay (N : Node ℝ o o) (l : ℝ) : HasPaths (Rt.delay N l) (Paths.par o l) := by
  intro sg _
  refine ⟨chans_length _ _, fun c => ?_, fun h c => ?_⟩
  · simp only [Rt.delay]
    rw [chans_at _ c.2]
    refine (least_shift (lat (sg.at c)) l).of_eq ?_ (lat_delay _ _).symm
    ext x
    constructor
    · rintro ⟨y, h, rfl⟩; exact Or.inr ⟨c, y, l, h, ⟨rfl, rfl⟩, rfl⟩
    · rintro (⟨h, _⟩ | ⟨a, y, d, h, ⟨h2, rfl⟩, rfl⟩)
      · cases h
      · cases h2; exact ⟨y, h, rfl⟩
  · simp only [Rt.delay]
    rw [chans_at _ c.2]
    have := h c
    revert this
    cases sg.at c <;> simp [Sig.delay, Sig.isResponse]

theorem paths_multiBus {X : Node ℝ i o} {n : Nat} {r : Fin (n + 1) → Rt X} {P : Fin (n + 1) → Paths i o} (hr : ∀ q, HasPaths (r q) (P q)) :
    HasPaths (Rt.multiBus r) (Paths.multiBus P) := by
  intro sg hl
  have key := fun c : Fin o => least_foldl Sig.add op2_add n _ _ _ _ ((hr 0 sg hl).2.1 c) (fun q => (hr q.succ sg hl).2.1 c)
  refine ⟨chans_length _ _, fun c => ?_, fun h c => ?_⟩ <;> simp only [Rt.multiBus] <;> rw [chans_at _ c.2]
  · refine (key c).1.of_eq ?_ rfl
    ext x
    constructor
    · rintro ((h | ⟨a, y, d, h1, h2, h3⟩) | ⟨q, (h | ⟨a, y, d, h1, h2, h3⟩)⟩)
      · exact Or.inl ⟨_, h⟩
      · exact Or.inr ⟨a, y, d, h1, ⟨_, h2⟩, h3⟩
      · exact Or.inl ⟨_, h⟩
      · exact Or.inr ⟨a, y, d, h1, ⟨_, h2⟩, h3⟩
    · rintro (⟨q, h⟩ | ⟨a, y, d, h1, ⟨q, h2⟩, h3⟩) <;> induction q using Fin.cases with
      | zero => first | exact Or.inl (Or.inl h) | exact Or.inl (Or.inr ⟨a, y, d, h1, h2, h3⟩)
      | succ q => first | exact Or.inr ⟨q, Or.inl h⟩ | exact Or.inr ⟨q, Or.inr ⟨a, y, d, h1, h2, h3⟩⟩
  · exact (key c).2 ((hr 0 sg hl).2.2 h c) (fun q => (hr q.succ sg hl).2.2 h c)

theorem paths_multiBranch {X : Node ℝ i o} {n : Nat} {r : Fin n → Rt X} {P : Fin n → Paths i o} (hr : ∀ q, HasPaths (r q) (P q)) :
    HasPaths (Rt.multiBranch r) (Paths.multiBranch P) := by
  intro sg hl
  refine ⟨chans_length _ _, fun c => ?_, fun h c => ?_⟩ <;> simp only [Rt.multiBranch] <;> rw [chans_at _ c.2, dif_pos c.2]
  · exact (hr (nodeOf c) sg hl).2.1 (chanOf c)
  · exact (hr (nodeOf c) sg hl).2.2 h (chanOf c)

/-- The analysis given to unit `q` of several with separate inputs. -/
theorem part_route {X : Node ℝ i o} {n : Nat} {r : Fin n → Rt X} (q : Fin n) (hl : q.1 = 0 → Local (r q)) {sg : SFrame} (h : sg.length = i * n) :
    (r q).route (if q.1 = 0 then sg else sg.copy (q.1 * i) i) = (r q).route (sg.copy (q.1 * i) i) := by
  split
  · rename_i h0
    rw [hl h0 sg (by rw [h]; exact Nat.le_mul_of_pos_right _ (Nat.lt_of_le_of_lt (Nat.zero_le _) q.2)), h0, Nat.zero_mul]
  · rfl

theorem copy_multi (sg : SFrame) {n : Nat} (q : Fin n) (b : Fin i) : (sg.copy (q.1 * i) i).at b = sg.at (multiIdx b q.1 q.2) := by
  rw [copy_at _ _ _ b.2, Nat.add_comm]; rfl

theorem paths_multiStack {X : Node ℝ i o} {n : Nat} {r : Fin n → Rt X} {P : Fin n → Paths i o} (hr : ∀ q, HasPaths (r q) (P q))
    (hl : ∀ q, Local (r q)) : HasPaths (Rt.multiStack r) (Paths.multiStack P) := by
  intro sg hs
  have key := fun q => hr q (sg.copy (q.1 * i) i) (chans_length _ _)
  refine ⟨chans_length _ _, fun c => ?_, fun h c => ?_⟩ <;> simp only [Rt.multiStack] <;>
    rw [chans_at _ c.2, dif_pos c.2, part_route (nodeOf c) (fun _ => hl _) hs]
  · refine ((key (nodeOf c)).2.1 (chanOf c)).of_eq ?_ rfl
    ext x
    constructor
    · rintro (h | ⟨a, y, d, h1, h2, rfl⟩)
      · exact Or.inl (Or.inl ⟨rfl, h⟩)
      · beta_reduce at h1
        rw [copy_multi] at h1
        exact Or.inr ⟨_, y, d, h1, Or.inr ⟨a, rfl, h2⟩, rfl⟩
    · rintro ((⟨_, h⟩ | ⟨b, h, _⟩) | ⟨a, y, d, h1, (⟨h, _⟩ | ⟨b, hb, h2⟩), rfl⟩)
      · exact Or.inl h
      · cases h
      · cases h
      · cases hb
        refine Or.inr ⟨b, y, d, ?_, h2, rfl⟩
        beta_reduce
        rw [copy_multi]; exact h1
  · exact (key (nodeOf c)).2.2 (fun b => by rw [copy_multi]; exact h _) (chanOf c)

theorem paths_reduce {f : Sig → Sig → Sig} (hf : Op2Lat f) (op : ℝ → ℝ → ℝ) {X : Node ℝ i o} {n : Nat} {r : Fin (n + 1) → Rt X}
    {P : Fin (n + 1) → Paths i o} (hr : ∀ q, HasPaths (r q) (P q)) (hl : Local (r 0)) : HasPaths (Rt.reduce op f r) (Paths.reduce P) := by
  intro sg hs
  have h0 : (r 0).route sg = (r 0).route (sg.copy ((0 : Fin (n + 1)).1 * i) i) := by
    have := part_route (r := r) 0 (fun _ => hl) hs
    simpa using this
  have hk := fun q => hr q (sg.copy (q.1 * i) i) (chans_length _ _)
  have key := fun c : Fin o => least_foldl f hf n _ _ _ _ ((hk 0).2.1 c) (fun q => (hk q.succ).2.1 c)
  refine ⟨chans_length _ _, fun c => ?_, fun h c => ?_⟩ <;> simp only [Rt.reduce] <;> rw [chans_at _ c.2, h0]
  · refine (key c).1.of_eq ?_ rfl
    have e : ∀ q : Fin (n + 1), arrive (P q) (fun a => lat ((sg.copy (q.1 * i) i).at a)) c ⊆ arrive (Paths.reduce P) (fun a => lat (sg.at a)) c := by
      rintro q x (h | ⟨a, y, d, h1, h2, rfl⟩)
      · exact Or.inl ⟨q, Or.inl ⟨rfl, h⟩⟩
      · beta_reduce at h1
        rw [copy_multi] at h1
        exact Or.inr ⟨_, y, d, h1, ⟨q, Or.inr ⟨a, rfl, h2⟩⟩, rfl⟩
    have e2 : ∀ x ∈ arrive (Paths.reduce P) (fun a => lat (sg.at a)) c,
        ∃ q : Fin (n + 1), x ∈ arrive (P q) (fun a => lat ((sg.copy (q.1 * i) i).at a)) c := by
      rintro x (⟨q, (⟨_, h⟩ | ⟨b, h, _⟩)⟩ | ⟨a, y, d, h1, ⟨q, (⟨h, _⟩ | ⟨b, hb, h2⟩)⟩, rfl⟩)
      · exact ⟨q, Or.inl h⟩
      · cases h
      · cases h
      · cases hb
        refine ⟨q, Or.inr ⟨b, y, d, ?_, h2, rfl⟩⟩
        beta_reduce
        rw [copy_multi]; exact h1
    ext x
    constructor
    · rintro (h | ⟨q, h⟩)
      exacts [e 0 h, e q.succ h]
    · intro h
      obtain ⟨q, hq⟩ := e2 x h
      induction q using Fin.cases with
      | zero => exact Or.inl hq
      | succ q => exact Or.inr ⟨q, hq⟩
  · exact (key c).2 ((hk 0).2.2 (fun b => by rw [copy_multi]; exact h _) c)
      (fun q => (hk q.succ).2.2 (fun b => by rw [copy_multi]; exact h _) c)

theorem paths_chain {X : Node ℝ i i} : ∀ {n : Nat} {r : Fin (n + 1) → Rt X} {P : Fin (n + 1) → Paths i i} (_ : ∀ q, HasPaths (r q) (P q)),
    HasPaths (Rt.chain r) (Paths.chain n P) := by
  intro n
  induction n with
  | zero => intro r P h; simpa [Rt.chain, Paths.chain, HasPaths] using h 0
  | succ n ih =>
    intro r P h sg hs
    have h2 := paths_pipe (r := r 0) (q := Rt.chain (fun q => r q.succ)) (h 0) (ih (fun q => h q.succ)) sg hs
    have e : (Rt.chain r).route sg = ((r 0).pipe (Rt.chain (fun q => r q.succ))).route sg := by
      simp only [Rt.chain, Rt.pipe]
      rw [Fin.foldl_succ]
    rw [e]
    exact h2

/-! ### `latency()` -/

theorem minLatency_least (f : SFrame) (h : ∀ s ∈ f, ¬ Sig.isResponse s) : Least {x | ∃ s ∈ f, lat s = some x} (minLatency f) := by
  have key : ∀ (f : SFrame) (acc : Option ℝ) (S : Set ℝ), (∀ s ∈ f, ¬ Sig.isResponse s) → Least S acc →
      Least (S ∪ {x | ∃ s ∈ f, lat s = some x}) (f.foldl latencyStep acc) := by
    intro f
    induction f with
    | nil => intro acc S _ h; simpa using h
    | cons a f ih =>
      intro acc S hn h
      have hone : Least {x | lat a = some x} (lat a) := by
        cases h : lat a with
        | none => simp [Least]
        | some l => exact ⟨rfl, fun x hx => by cases hx; exact le_refl _⟩
      have := ih (omin acc (lat a)) (S ∪ {x | lat a = some x}) (fun s hs => hn s (List.mem_cons_of_mem _ hs)) (h.union hone)
      have ha := hn a (List.mem_cons_self)
      refine this.of_eq ?_ ?_
      · ext x; simp [or_assoc]
      · rw [List.foldl_cons]
        congr 1
        cases a <;> cases acc <;> simp_all [lat, omin, Sig.isResponse, latencyStep]
  have := key f none ∅ h rfl
  simpa [minLatency] using this

/-- Paths of a unit, from anywhere to anywhere. -/
def Paths.total (P : Paths i o) : Set ℝ := {d | ∃ a c, P a c d}

theorem HasPaths.latency {N : Node ℝ i o} {R : Rt N} {P : Paths i o} (h : HasPaths R P) (ho : 0 < o) : Least P.total R.latency := by
  have hin : ∀ a : Fin i, (chans i (fun _ => Sig.latency 0)).at a = Sig.latency 0 := fun a => chans_at _ a.2
  obtain ⟨h1, h2, h3⟩ := h (chans i (fun _ => Sig.latency 0)) (chans_length _ _)
  have h4 := h3 (fun a => by rw [hin]; simp [Sig.isResponse])
  simp only [hin] at h2
  have hmem : ∀ s ∈ R.route (chans i (fun _ => Sig.latency 0)), ∃ c : Fin o, s = (R.route (chans i (fun _ => Sig.latency 0))).at c := by
    intro s hs
    obtain ⟨k, hk, rfl⟩ := List.getElem_of_mem hs
    exact ⟨⟨k, h1 ▸ hk⟩, by rw [SFrame.at, List.getD, List.getElem?_eq_getElem hk]; rfl⟩
  rw [Rt.latency, if_neg (by omega)]
  refine (minLatency_least _ (fun s hs => by obtain ⟨c, rfl⟩ := hmem s hs; exact h4 c)).congr ?_ ?_
  · rintro x ⟨s, hs, hx⟩
    obtain ⟨c, rfl⟩ := hmem s hs
    have := h2 c
    rw [hx] at this
    rcases this.1 with h | ⟨a, y, d, hy, h, rfl⟩
    · exact ⟨none, c, h⟩
    · cases hy
      rw [zero_add]
      exact ⟨some a, c, h⟩
  · rintro t ⟨a, c, ht⟩
    have hin2 : t ∈ arrive P (fun _ => lat (Sig.latency 0)) c := by
      cases a with
      | none => exact Or.inl ht
      | some a => exact Or.inr ⟨a, 0, t, rfl, ht, by ring⟩
    have h5 := h2 c
    cases hc : lat ((R.route (chans i (fun _ => Sig.latency 0))).at c) with
    | none => rw [hc] at h5; rw [show arrive P _ c = ∅ from h5] at hin2; exact hin2.elim
    | some l =>
      rw [hc] at h5
      refine ⟨l, ⟨_, ?_, hc⟩, h5.2 hin2⟩
      have hk : c.1 < (R.route (chans i (fun _ => Sig.latency 0))).length := h1.symm ▸ c.2
      rw [SFrame.at, List.getD, List.getElem?_eq_getElem hk]
      exact List.getElem_mem hk

end Fundsp.Route
