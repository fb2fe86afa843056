import Verif.Route.Props
import Mathlib.Data.Fin.Tuple.Basic

/-! C119: the analysis finds the response of every linear expression. Nothing is said here about its value, which is C68. -/

namespace Fundsp.Route
open _root_.Filter Topology Fundsp.Filter Fundsp.Delay
variable {i j o p m n : Nat}

/-! ## Specification -/

/-- What is known of a signal: `true` for a sinusoid whose response is known, `false` for a known constant. -/
def Kind : Bool → Sig → Prop
  | true, .response _ _ => True
  | false, .value _ => True
  | _, _ => False

/-- With inputs of kinds `a`, the outputs have kinds `b`. -/
def Keeps {N : Node ℝ i o} (R : Rt N) (a : Fin i → Bool) (b : Fin o → Bool) : Prop :=
  ∀ sg : SFrame, sg.length = i → (∀ c : Fin i, Kind (a c) (sg.at c)) → (R.route sg).length = o ∧ ∀ c : Fin o, Kind (b c) ((R.route sg).at c)

/-- Whether there is a sinusoid in any of several channels. -/
def some' (a : Fin n → Bool) : Bool := decide (∃ c, a c = true)

/-- Linear expressions, with the channels on which there are sinusoids and those on which there are constants. Sinusoids may be filtered, delayed, wired,
mixed, multiplied with constants and added to constants; constants may be wired, mixed and multiplied. -/
inductive Linear : {i o : Nat} → {N : Node ℝ i o} → Rt N → (Fin i → Bool) → (Fin o → Bool) → Prop
  | leaf {i o : Nat} {N : Node ℝ i o} {R : Rt N} {a : Fin i → Bool} {b : Fin o → Bool} : Keeps R a b → Linear R a b
  | filter (N : Node ℝ 1 1) (ok : N.σ → Prop) (l : ℝ) (H : ℂ) : Linear (Rt.filter N ok l H) (fun _ => true) (fun _ => true)
  | delay {n : Nat} (N : Node ℝ n n) (l : ℝ) (a : Fin n → Bool) : Linear (Rt.delay N l) a a
  | multiPass (n : Nat) (a : Fin n → Bool) : Linear (Rt.multiPass n) a a
  | sink (n : Nat) (a : Fin n → Bool) (b : Fin 0 → Bool) : Linear (Rt.sink n) a b
  | constant (n : Nat) (v : Frame ℝ n) (a : Fin 0 → Bool) : Linear (Rt.constant n v) a (fun _ => false)
  | split (n : Nat) (a : Fin 1 → Bool) : Linear (Rt.split n) a (fun _ => a 0)
  | multiSplit (m n : Nat) (a : Fin (m + 1) → Bool) : Linear (Rt.multiSplit (m + 1) n) a (fun c => a ⟨c.1 % (m + 1), Nat.mod_lt _ (Nat.succ_pos m)⟩)
  | join (n : Nat) (a : Fin (n + 1) → Bool) : Linear (Rt.join n) a (fun _ => some' a)
  | multiJoin (m n : Nat) (a : Fin ((m + 1) * (n + 1)) → Bool) :
      Linear (Rt.multiJoin (m + 1) n) a (fun c => some' fun q : Fin (n + 1) => a (multiIdx c q.1 q.2))
  | reverse (n : Nat) (a : Fin n → Bool) : Linear (Rt.reverse n) a (fun c => a c.rev)
  | pipe {i j o : Nat} {X : Node ℝ i j} {Y : Node ℝ j o} {r : Rt X} {q : Rt Y} {a : Fin i → Bool} {m : Fin j → Bool} {b : Fin o → Bool} :
      Linear r a m → Linear q m b → Linear (r.pipe q) a b
  | stack {i j o p : Nat} {X : Node ℝ i o} {Y : Node ℝ j p} {r : Rt X} {q : Rt Y} {a : Fin i → Bool} {a' : Fin j → Bool} {b : Fin o → Bool} {b' : Fin p → Bool} :
      Linear r a b → Linear q a' b' → Linear (r.stack q) (Fin.append a a') (Fin.append b b')
  | branch {i o p : Nat} {X : Node ℝ i o} {Y : Node ℝ i p} {r : Rt X} {q : Rt Y} {a : Fin i → Bool} {b : Fin o → Bool} {b' : Fin p → Bool} :
      Linear r a b → Linear q a b' → Linear (r.branch q) a (Fin.append b b')
  | bus {i o : Nat} {X Y : Node ℝ i o} {r : Rt X} {q : Rt Y} {a : Fin i → Bool} {b b' : Fin o → Bool} :
      Linear r a b → Linear q a b' → Linear (r.bus q) a (fun c => b c || b' c)
  | thru {i o : Nat} {X : Node ℝ i o} {r : Rt X} {a : Fin i → Bool} {b : Fin o → Bool} :
      Linear r a b → Linear r.thru a (fun c => if h : c.1 < o then b ⟨c.1, h⟩ else a c)
  | add {i j o : Nat} {X : Node ℝ i o} {Y : Node ℝ j o} {r : Rt X} {q : Rt Y} {a : Fin i → Bool} {a' : Fin j → Bool} {b b' : Fin o → Bool} :
      Linear r a b → Linear q a' b' → Linear (Rt.binop (· + ·) Sig.add r q) (Fin.append a a') (fun c => b c || b' c)
  | sub {i j o : Nat} {X : Node ℝ i o} {Y : Node ℝ j o} {r : Rt X} {q : Rt Y} {a : Fin i → Bool} {a' : Fin j → Bool} {b b' : Fin o → Bool} :
      Linear r a b → Linear q a' b' → Linear (Rt.binop (· - ·) Sig.sub r q) (Fin.append a a') (fun c => b c || b' c)
  | mul {i j o : Nat} {X : Node ℝ i o} {Y : Node ℝ j o} {r : Rt X} {q : Rt Y} {a : Fin i → Bool} {a' : Fin j → Bool} {b b' : Fin o → Bool} :
      Linear r a b → Linear q a' b' → (∀ c, b c = false ∨ b' c = false) →
      Linear (Rt.binop (· * ·) Sig.mul r q) (Fin.append a a') (fun c => b c || b' c)
  | neg {i o : Nat} {X : Node ℝ i o} {r : Rt X} {a : Fin i → Bool} {b : Fin o → Bool} : Linear r a b → Linear (Rt.unop (fun x => -x) Sig.neg r) a b
  | addScalar (c : ℝ) {i o : Nat} {X : Node ℝ i o} {r : Rt X} {a : Fin i → Bool} {b : Fin o → Bool} :
      Linear r a b → Linear (Rt.unop (fun x => x + c) (Sig.addScalar c) r) a b
  | negAddScalar (c : ℝ) {i o : Nat} {X : Node ℝ i o} {r : Rt X} {a : Fin i → Bool} {b : Fin o → Bool} :
      Linear r a b → Linear (Rt.unop (fun x => -x + c) (Sig.negAddScalar c) r) a b
  | mulScalar (c : ℝ) {i o : Nat} {X : Node ℝ i o} {r : Rt X} {a : Fin i → Bool} {b : Fin o → Bool} :
      Linear r a b → Linear (Rt.unop (fun x => x * c) (Sig.mulScalar c) r) a b
  | multiBus {i o n : Nat} {X : Node ℝ i o} {r : Fin (n + 1) → Rt X} {a : Fin i → Bool} {b : Fin (n + 1) → Fin o → Bool} :
      (∀ q, Linear (r q) a (b q)) → Linear (Rt.multiBus r) a (fun c => some' fun q => b q c)
  | multiBranch {i o n : Nat} {X : Node ℝ i o} {r : Fin n → Rt X} {a : Fin i → Bool} {b : Fin n → Fin o → Bool} :
      (∀ q, Linear (r q) a (b q)) → Linear (Rt.multiBranch r) a (fun c => b (nodeOf c) (chanOf c))
  | multiStack {i o n : Nat} {X : Node ℝ i o} {r : Fin n → Rt X} {a : Fin (i * n) → Bool} {b : Fin n → Fin o → Bool} :
      (∀ q, Linear (r q) (fun c => a (multiIdx c q.1 q.2)) (b q)) → (∀ q, Local (r q)) → Linear (Rt.multiStack r) a (fun c => b (nodeOf c) (chanOf c))
  | reduceAdd {i o n : Nat} {X : Node ℝ i o} {r : Fin (n + 1) → Rt X} {a : Fin (i * (n + 1)) → Bool} {b : Fin (n + 1) → Fin o → Bool} :
      (∀ q, Linear (r q) (fun c => a (multiIdx c q.1 q.2)) (b q)) → Local (r 0) →
      Linear (Rt.reduce (· + ·) Sig.add r) a (fun c => some' fun q => b q c)
  | chain {i n : Nat} {X : Node ℝ i i} {r : Fin (n + 1) → Rt X} {a : Fin (n + 2) → Fin i → Bool} :
      (∀ q : Fin (n + 1), Linear (r q) (a q.castSucc) (a q.succ)) → Linear (Rt.chain r) (a 0) (a (Fin.last (n + 1)))

/-! ## Lemmas -/

theorem kind_add {a b : Bool} {s t : Sig} (hs : Kind a s) (ht : Kind b t) : Kind (a || b) (s.add t) := by
  cases a <;> cases b <;> cases s <;> cases t <;> simp_all [Kind, Sig.add, Sig.combineLinear]

theorem kind_sub {a b : Bool} {s t : Sig} (hs : Kind a s) (ht : Kind b t) : Kind (a || b) (s.sub t) := by
  cases a <;> cases b <;> cases s <;> cases t <;> simp_all [Kind, Sig.sub, Sig.combineLinear]

theorem kind_mul {a b : Bool} {s t : Sig} (hs : Kind a s) (ht : Kind b t) (h : a = false ∨ b = false) : Kind (a || b) (s.mul t) := by
  cases a <;> cases b <;> cases s <;> cases t <;> simp_all [Kind, Sig.mul]

theorem kind_scale {a : Bool} {s : Sig} (f : ℝ) (hs : Kind a s) : Kind a (s.scale f) := by
  cases a <;> cases s <;> simp_all [Kind, Sig.scale]

theorem kind_foldl (n : Nat) (b : Fin (n + 1) → Bool) (s : Sig) (f : Fin n → Sig) (h0 : Kind (b 0) s) (h : ∀ q : Fin n, Kind (b q.succ) (f q)) :
    Kind (some' b) (Fin.foldl n (fun acc q => acc.add (f q)) s) := by
  have key : ∀ (n : Nat) (a : Bool) (b : Fin n → Bool) (s : Sig) (f : Fin n → Sig), Kind a s → (∀ q, Kind (b q) (f q)) →
      Kind (a || some' b) (Fin.foldl n (fun acc q => acc.add (f q)) s) := by
    intro n
    induction n with
    | zero =>
      intro a b s f hs _
      have : some' b = false := by simp [some']
      rw [this, Bool.or_false]
      simpa using hs
    | succ n ih =>
      intro a b s f hs hf
      rw [Fin.foldl_succ]
      have := ih (a || b 0) (fun q => b q.succ) (s.add (f 0)) (fun q => f q.succ) (kind_add hs (hf 0)) (fun q => hf q.succ)
      have e : some' b = (b 0 || some' fun q : Fin n => b q.succ) := by
        simp only [some', Fin.exists_fin_succ]
        cases b 0 <;> simp
      rw [e, ← Bool.or_assoc]
      exact this
  have := key n (b 0) (fun q => b q.succ) s f h0 h
  have e : some' b = (b 0 || some' fun q : Fin n => b q.succ) := by
    simp only [some', Fin.exists_fin_succ]
    cases b 0 <;> simp
  rw [e]
  exact this

theorem keeps_unop {X : Node ℝ i o} {r : Rt X} {a : Fin i → Bool} {b : Fin o → Bool} {op : ℝ → ℝ} {f : Sig → Sig} (h : Keeps r a b)
    (hf : ∀ k s, Kind k s → Kind k (f s)) : Keeps (Rt.unop op f r) a b := by
  intro sg hl ha
  refine ⟨chans_length _ _, fun c => ?_⟩
  simp only [Rt.unop]
  rw [chans_at _ c.2]
  exact hf _ _ ((h sg hl ha).2 c)

theorem kind_left {a : Fin i → Bool} {a' : Fin j → Bool} {sg : SFrame} (ha : ∀ c : Fin (i + j), Kind (Fin.append a a' c) (sg.at c)) (c : Fin i) :
    Kind (a c) ((sg.copy 0 i).at c) := by
  rw [copy_at _ _ _ c.2, Nat.zero_add]
  have := ha (Fin.castAdd j c)
  rwa [Fin.append_left] at this

theorem kind_right {a : Fin i → Bool} {a' : Fin j → Bool} {sg : SFrame} (ha : ∀ c : Fin (i + j), Kind (Fin.append a a' c) (sg.at c)) (c : Fin j) :
    Kind (a' c) ((sg.copy i j).at c) := by
  rw [copy_at _ _ _ c.2]
  have := ha (Fin.natAdd i c)
  rwa [Fin.append_right] at this

theorem keeps_binop {X : Node ℝ i o} {Y : Node ℝ j o} {r : Rt X} {q : Rt Y} {a : Fin i → Bool} {a' : Fin j → Bool} {b b' : Fin o → Bool} {op : ℝ → ℝ → ℝ}
    {f : Sig → Sig → Sig} (hr : Keeps r a b) (hq : Keeps q a' b') (hf : ∀ c s t, Kind (b c) s → Kind (b' c) t → Kind (b c || b' c) (f s t)) :
    Keeps (Rt.binop op f r q) (Fin.append a a') (fun c => b c || b' c) := by
  intro sg hl ha
  refine ⟨chans_length _ _, fun c => ?_⟩
  simp only [Rt.binop]
  rw [chans_at _ c.2]
  exact hf c _ _ ((hr _ (chans_length _ _) (kind_left ha)).2 c) ((hq _ (chans_length _ _) (kind_right ha)).2 c)

/-- Two groups of outputs side by side. -/
theorem kind_append {b : Fin o → Bool} {b' : Fin p → Bool} {s t : SFrame} (hs : ∀ c : Fin o, Kind (b c) (s.at c)) (ht : ∀ c : Fin p, Kind (b' c) (t.at c))
    (c : Fin (o + p)) : Kind (Fin.append b b' c) (if c.1 < o then s.at c.1 else t.at (c.1 - o)) := by
  induction c using Fin.addCases with
  | left c =>
    rw [Fin.append_left, if_pos (by simp)]
    exact hs c
  | right c =>
    rw [Fin.append_right, if_neg (by simp)]
    simpa using ht c

theorem Linear.keeps {N : Node ℝ i o} {R : Rt N} {a : Fin i → Bool} {b : Fin o → Bool} (h : Linear R a b) : Keeps R a b := by
  induction h with
  | leaf h => exact h
  | filter N ok l H =>
    intro sg hl ha
    refine ⟨rfl, fun c => ?_⟩
    have h0 := ha 0
    rw [Subsingleton.elim c 0]
    show Kind true ((sg.at 0).filter l _)
    revert h0
    show Kind true (sg.at 0) → _
    cases sg.at 0 <;> simp [Kind, Sig.filter]
  | delay N l a =>
    intro sg hl ha
    refine ⟨chans_length _ _, fun c => ?_⟩
    simp only [Rt.delay]
    rw [chans_at _ c.2]
    have := ha c
    revert this
    cases a c <;> cases sg.at c <;> simp [Kind, Sig.delay]
  | multiPass n a => exact fun sg hl ha => ⟨hl, ha⟩
  | sink n a b => exact fun sg hl ha => ⟨rfl, fun c => c.elim0⟩
  | constant n v a =>
    intro sg hl ha
    refine ⟨chans_length _ _, fun c => ?_⟩
    simp only [Rt.constant]
    rw [chans_at _ c.2, dif_pos c.2]
    trivial
  | split n a =>
    intro sg hl ha
    simp only [Rt.split, routeSplit, hl, Nat.one_ne_zero, if_false, Nat.mod_one]
    refine ⟨chans_length _ _, fun c => ?_⟩
    rw [chans_at _ c.2]
    exact ha 0
  | multiSplit m n a =>
    intro sg hl ha
    simp only [Rt.multiSplit, routeSplit, hl, Nat.succ_ne_zero, if_false]
    refine ⟨chans_length _ _, fun c => ?_⟩
    rw [chans_at _ c.2]
    exact ha ⟨c.1 % (m + 1), Nat.mod_lt _ (Nat.succ_pos m)⟩
  | join n a =>
    intro sg hl ha
    simp only [Rt.join, routeJoin, hl, Nat.succ_ne_zero, if_false, Nat.div_one, Nat.add_sub_cancel]
    refine ⟨chans_length _ _, fun c => ?_⟩
    rw [chans_at _ c.2, range_foldl_fin, show c.1 = 0 by omega]
    refine kind_scale _ (kind_foldl n a _ _ (ha 0) fun q => ?_)
    simpa using ha q.succ
  | multiJoin m n a =>
    intro sg hl ha
    have hne : sg.length ≠ 0 := by rw [hl]; exact Nat.mul_ne_zero (Nat.succ_ne_zero m) (Nat.succ_ne_zero n)
    have hb : sg.length / (m + 1) - 1 = n := by rw [hl, Nat.mul_div_cancel_left _ (Nat.succ_pos m)]; rfl
    simp only [Rt.multiJoin, routeJoin, hne, if_false]
    refine ⟨chans_length _ _, fun c => ?_⟩
    rw [chans_at _ c.2, hb, range_foldl_fin]
    refine kind_scale _ (kind_foldl n (fun q : Fin (n + 1) => a (multiIdx c q.1 q.2)) _ _ ?_ fun q => ?_)
    · simpa [multiIdx] using ha (multiIdx c 0 (Nat.succ_pos n))
    · exact ha (multiIdx c (q.1 + 1) (by omega))
  | reverse n a =>
    intro sg hl ha
    by_cases hn : n = 0
    · subst hn
      refine ⟨?_, fun c => c.elim0⟩
      simp [Rt.reverse, routeReverse, hl, chans_length]
    simp only [Rt.reverse, routeReverse, hl, hn, if_false]
    refine ⟨chans_length _ _, fun c => ?_⟩
    rw [chans_at _ c.2]
    have := ha c.rev
    rwa [Fin.val_rev, show n - (c.1 + 1) = n - 1 - c.1 by omega] at this
  | pipe _ _ h1 h2 =>
    intro sg hl ha
    obtain ⟨k1, k2⟩ := h1 sg hl ha
    exact h2 _ k1 k2
  | stack _ _ h1 h2 =>
    intro sg hl ha
    refine ⟨chans_length _ _, fun c => ?_⟩
    simp only [Rt.stack]
    rw [chans_at _ c.2]
    exact kind_append (h1 _ (chans_length _ _) (kind_left ha)).2 (h2 _ (chans_length _ _) (kind_right ha)).2 c
  | branch _ _ h1 h2 =>
    intro sg hl ha
    refine ⟨chans_length _ _, fun c => ?_⟩
    simp only [Rt.branch]
    rw [chans_at _ c.2]
    exact kind_append (h1 sg hl ha).2 (h2 sg hl ha).2 c
  | bus _ _ h1 h2 =>
    intro sg hl ha
    refine ⟨chans_length _ _, fun c => ?_⟩
    simp only [Rt.bus]
    rw [chans_at _ c.2]
    exact kind_add ((h1 sg hl ha).2 c) ((h2 sg hl ha).2 c)
  | thru _ h1 =>
    intro sg hl ha
    refine ⟨chans_length _ _, fun c => ?_⟩
    simp only [Rt.thru]
    rw [chans_at _ c.2]
    split
    · rename_i hc
      exact (h1 sg hl ha).2 ⟨c.1, hc⟩
    · exact ha c
  | add _ _ h1 h2 => exact keeps_binop h1 h2 fun _ _ _ => kind_add
  | sub _ _ h1 h2 => exact keeps_binop h1 h2 fun _ _ _ => kind_sub
  | mul _ _ hm h1 h2 => exact keeps_binop h1 h2 fun c _ _ hs ht => kind_mul hs ht (hm c)
  | neg _ h1 => exact keeps_unop h1 fun k s hs => by cases k <;> cases s <;> simp_all [Kind, Sig.neg]
  | addScalar c _ h1 => exact keeps_unop h1 fun k s hs => by cases k <;> cases s <;> simp_all [Kind, Sig.addScalar]
  | negAddScalar c _ h1 => exact keeps_unop h1 fun k s hs => by cases k <;> cases s <;> simp_all [Kind, Sig.negAddScalar]
  | mulScalar c _ h1 => exact keeps_unop h1 fun k s hs => by cases k <;> cases s <;> simp_all [Kind, Sig.mulScalar]
  | @multiBus _ _ _ _ _ _ b _ h =>
    intro sg hl ha
    refine ⟨chans_length _ _, fun c => ?_⟩
    simp only [Rt.multiBus]
    rw [chans_at _ c.2]
    exact kind_foldl _ (fun q => b q c) _ _ ((h 0 sg hl ha).2 c) fun q => (h q.succ sg hl ha).2 c
  | multiBranch _ h =>
    intro sg hl ha
    refine ⟨chans_length _ _, fun c => ?_⟩
    simp only [Rt.multiBranch]
    rw [chans_at _ c.2, dif_pos c.2]
    exact (h (nodeOf c) sg hl ha).2 (chanOf c)
  | multiStack _ hl' h =>
    intro sg hl ha
    refine ⟨chans_length _ _, fun c => ?_⟩
    simp only [Rt.multiStack]
    rw [chans_at _ c.2, dif_pos c.2, part_route (nodeOf c) (fun _ => hl' _) hl]
    exact (h (nodeOf c) (sg.copy ((nodeOf c).1 * _) _) (chans_length _ _) (fun b => by rw [copy_multi]; exact ha _)).2 (chanOf c)
  | @reduceAdd i o n X r a b _ hl' h =>
    intro sg hl ha
    have h0 : (r 0).route sg = (r 0).route (sg.copy ((0 : Fin (n + 1)).1 * i) i) := by
      have := part_route (r := r) 0 (fun _ => hl') hl
      simpa using this
    have hk := fun q => h q (sg.copy (q.1 * i) i) (chans_length _ _) (fun b => by rw [copy_multi]; exact ha _)
    refine ⟨chans_length _ _, fun c => ?_⟩
    simp only [Rt.reduce]
    rw [chans_at _ c.2, h0]
    exact kind_foldl n (fun q => b q c) _ _ ((hk 0).2 c) fun q => (hk q.succ).2 c
  | @chain i n X r a _ h =>
    clear * - h
    induction n with
    | zero =>
      intro sg hl ha
      have := h 0 sg hl ha
      simpa [Rt.chain] using this
    | succ n ih =>
      intro sg hl ha
      have e : (Rt.chain r).route sg = (Rt.chain (fun q => r q.succ)).route ((r 0).route sg) := by
        simp only [Rt.chain]
        rw [Fin.foldl_succ]
      rw [e]
      obtain ⟨k1, k2⟩ := h 0 sg hl ha
      exact ih (r := fun q => r q.succ) (a := fun q => a q.succ) (fun q => h q.succ) _ k1 k2

/-! ## The property -/

/-- **C119**: in every linear expression, `response(output, f)` is found at every output a sinusoid reaches. `_partial`: constants that go through filters are
not found, and neither is the response of what they are added to; see `C119_violation`. -/
theorem C119_response_partial {N : Node ℝ i o} {R : Rt N} {b : Fin o → Bool} (h : Linear R (fun _ => true) b) (output : Fin o) (ho : b output = true) :
    ∃ H, R.response output = some H := by
  have := (h.keeps (chans i fun _ => .response 1 0) (chans_length _ _) (fun c => by rw [chans_at _ c.2]; trivial)).2 output
  rw [ho] at this
  unfold Rt.response
  cases hx : (R.route (chans i fun _ => .response 1 0)).at output with
  | response H l => exact ⟨H, rfl⟩
  | _ => rw [hx] at this; exact this.elim

/-- **C119** (with C68): and it is the true one: the output settles to the sinusoid multiplied by the response that is found, plus a constant. -/
theorem C119_true_partial {θ : ℝ} {N : Node ℝ i o} {R : Rt N} {b : Fin o → Bool} (h : Linear R (fun _ => true) b) (hR : Routed θ R) (output : Fin o)
    (ho : b output = true) :
    ∃ H, R.response output = some H ∧ ∀ s, R.ok s → ∀ A : ℂ, ∃ d : ℝ,
      Tendsto (fun k => N.ticks.out s (fun t _ => (A * polar θ ^ t).re) k output - (d + (A * H * polar θ ^ k).re)) atTop (𝓝 0) := by
  obtain ⟨H, hH⟩ := C119_response_partial h output ho
  exact ⟨H, hH, fun s hs A => C68_response_partial hR hH hs A⟩

/-- **C119**: outputs that no sinusoid reaches are found to be constants and have no response. -/
theorem C119_constant_partial {N : Node ℝ i o} {R : Rt N} {b : Fin o → Bool} (h : Linear R (fun _ => true) b) (output : Fin o) (ho : b output = false) :
    R.response output = none ∧ ∃ v, (R.route (chans i fun _ => .response 1 0)).at output = .value v := by
  have := (h.keeps (chans i fun _ => .response 1 0) (chans_length _ _) (fun c => by rw [chans_at _ c.2]; trivial)).2 output
  rw [ho] at this
  unfold Rt.response
  cases hx : (R.route (chans i fun _ => .response 1 0)).at output with
  | value v => exact ⟨rfl, v, rfl⟩
  | _ => rw [hx] at this; exact this.elim

/-- **C119, the code violates it**: no response is found for `pass() + (dc(v) >> lowpole())`, though the output settles to the input plus a constant. For all
constants and all filters that have a response. -/
theorem C119_violation {N : Node ℝ 1 1} {ok : N.σ → Prop} {θ : ℝ} {H : ℂ} (hN : HasResponse N ok θ H) (l v : ℝ) :
    let R := Rt.binop (· + ·) Sig.add (Rt.multiPass 1) ((Rt.constant 1 fun _ => v).pipe (Rt.filter N ok l H))
    R.response 0 = none ∧ ∀ s, R.ok s → ∀ A : ℂ, ∃ d : ℝ,
      Tendsto (fun k => (binop (· + ·) (multiPass 1) (pipe (constant 1) N)).ticks.out s (fun t _ => (A * polar θ ^ t).re) k 0 - (d + (A * 1 * polar θ ^ k).re))
        atTop (𝓝 0) := by
  intro R
  refine ⟨?_, ?_⟩
  · simp [R, Rt.response, Rt.binop, Rt.multiPass, Rt.pipe, Rt.constant, Rt.filter, chans, SFrame.at, SFrame.copy, Sig.filter, Sig.add, Sig.combineLinear]
  · rintro ⟨s, t, u⟩ ⟨_, ht, hu⟩ A
    obtain ⟨G, hG⟩ := hN
    have hc : ∀ w k, (constant 1 : Node ℝ 0 1).ticks.out t w k 0 = v := fun w k => by
      rw [show t = (fun _ => v) from ht]
      exact congrFun (constant_st 1 (fun _ => v) w k) 0
    refine ⟨v * G, ?_⟩
    let w : Nat → Frame ℝ (1 + 0) := fun k _ => (A * polar θ ^ k).re
    have h := hG u ((constant 1 : Node ℝ 0 1).stream t fun k => (w k).takeR) 0 v hu
      (AsympExp.congr' (AsympExp.const _ v) rfl rfl fun k => (hc _ k).symm)
    rw [zero_mul] at h
    refine Tendsto.congr (fun k => ?_) h
    have e := congrFun (binop_out (· + ·) (multiPass 1) (pipe (constant 1) N) s (t, u) w k) 0
    have e2 := congrFun (pipe_out (constant 1 : Node ℝ 0 1) N t u (fun k => (w k).takeR) k) 0
    rw [e]
    beta_reduce
    rw [e2]
    have e3 : (multiPass 1 : Node ℝ 1 1).ticks.out s (fun k => (w k).takeL) k 0 = (A * polar θ ^ k).re := rfl
    rw [e3, mul_one]
    simp only [zero_mul, Complex.zero_re]
    ring

/-- `((lowpole() | dc(1)) >> join()) & pass() * 0.5`. -/
example (cf : ℝ → ℝ) (c : ℝ) (hc : |c| < 1) (θ : ℝ) :
    ∃ (N : Node ℝ 1 1) (R : Rt N) (H : ℂ), Linear R (fun _ => true) (fun _ => true) ∧ Routed θ R ∧ R.response 0 = some H := by
  have h : Linear ((((Rt.filter (lowpoleNode cf 0) (fun s : LowpoleSt ℝ => s.coeff = c) 0 (lowpoleResponse c θ)).stack (Rt.constant 1 fun _ => 1)).pipe
      (Rt.join 1)).bus (Rt.unop (fun x => x * (1 / 2)) (Sig.mulScalar (1 / 2)) (Rt.multiPass 1))) (Fin.append (fun _ : Fin 1 => true) (fun _ : Fin 0 => true))
      (fun c => (fun _ => some' (Fin.append (fun _ : Fin 1 => true) (fun _ : Fin 1 => false)) : Fin 1 → Bool) c || (fun _ => true : Fin 1 → Bool) c) :=
    .bus (.pipe (.stack (.filter _ _ _ _) (.constant 1 _ _)) (.join 1 _)) (.mulScalar _ (by
      have : Fin.append (fun _ : Fin 1 => true) (fun _ : Fin 0 => true) = fun _ => true := by decide
      rw [this]; exact .multiPass 1 _))
  have e1 : Fin.append (fun _ : Fin 1 => true) (fun _ : Fin 0 => true) = fun _ => true := by decide
  have e2 : (fun c => (fun _ => some' (Fin.append (fun _ : Fin 1 => true) (fun _ : Fin 1 => false)) : Fin 1 → Bool) c || (fun _ => true : Fin 1 → Bool) c) =
    fun _ => true := by funext c; simp
  rw [e1, e2] at h
  obtain ⟨H, hH⟩ := C119_response_partial h 0 rfl
  exact ⟨_, _, H, h, .bus (.pipe (.stack (.filter 0 (C44_lowpole cf c hc θ)) (.constant 1 _)) (.join 1)) (.mulScalar _ (.multiPass 1)), hH⟩

/-- `C119_violation` for a lowpole filter. -/
example (cf : ℝ → ℝ) (c : ℝ) (hc : |c| < 1) (θ v : ℝ) :
    (Rt.binop (· + ·) Sig.add (Rt.multiPass 1) ((Rt.constant 1 fun _ => v).pipe
      (Rt.filter (lowpoleNode cf 0) (fun s : LowpoleSt ℝ => s.coeff = c) 0 (lowpoleResponse c θ)))).response 0 = none :=
  (C119_violation (C44_lowpole cf c hc θ) 0 v).1

end Fundsp.Route
