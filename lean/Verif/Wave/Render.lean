import Verif.Wave.EditProps
import Verif.Core.Simd
import Verif.Core.Props
import Verif.Core.Reset
import Mathlib.Algebra.Order.Floor.Semiring
import Mathlib.Data.Real.Archimedean
import Mathlib.Tactic.FieldSimp
import Mathlib.Tactic.Linarith

/-!
# Rendering and filtering waves: property C58

Model of `Wave::render`, `render_latency`, `filter` and `filter_latency` (`/repo/src/wave.rs:426-594`) for a unit given by its node, its sample rate setter and its latency.
Durations and rates are real numbers, so products and quotients are not rounded. Scratch buffers of the unit are arbitrary.
-/

noncomputable section
namespace Fundsp.Wv

variable {α : Type} {i o : Nat}

/-- A unit to render: the processing part, `set_sample_rate` and `latency` (`audiounit.rs:26, 234`). -/
structure RUnit (α : Type) (i o : Nat) where
  node : Node α i o
  setRate : ℝ → node.σ → node.σ
  latency : node.σ → Option ℝ

/-- `round(x) as usize`. -/
def roundNat (x : ℝ) : Nat := ⌊x + 1 / 2⌋₊

/-- Samples appended to a channel in `render`: `wave.rs:456-461`; first whole items, then the rest. -/
def piece (m : Nat) (b : Nat → α) : List α :=
  ((List.range (m >>> 3)).flatMap fun j => (List.range 8).map fun k => b (8 * j + k)) ++ (List.range (m &&& 7)).map fun j => b ((m - (m &&& 7)) + j)

/-- Loop of `render`: `wave.rs:451-464`. -/
def renderLoop (n : Node α 0 o) (g : Nat → Garb α) (length t : Nat) (s : n.σ) (buf : Buf α o) (vec : Fin o → List α) : n.σ × (Fin o → List α) :=
  if t < length then
    let m := min (length - t) 64
    let r := n.process (g t) s m (fun c => c.elim0) buf
    renderLoop n g length (t + m) r.1 r.2 (fun c => vec c ++ piece m (r.2 c))
  else (s, vec)
  termination_by length - t

/-- `render`: `wave.rs:439-466`. -/
def render [Zero α] (u : RUnit α 0 o) (g : Nat → Garb α) (rate duration : ℝ) (s : u.node.σ) : Option (u.node.σ × Wave α) :=
  if 0 < o ∧ 0 ≤ duration then
    let length := roundNat (duration * rate)
    let r := renderLoop u.node g length 0 (u.setRate rate s) (fun _ _ => 0) (fun _ => [])
    some (r.1, ⟨List.ofFn r.2, rate, length⟩)
  else none

/-- `for channel in .. { for i in 0..n { wave.set(channel, i, source.at(channel, i + offset)) } }`: `wave.rs:490-494, 585-589`. -/
def copyFrom (source : Wave α) (offset n : Nat) (w : Wave α) : Option (Wave α) :=
  forRange 0 w.channels (fun c w => forRange 0 n (fun k w => (source.at? c (k + offset)).bind fun x => w.set c k x) w) w

/-- `render_latency`: `wave.rs:476-499`. -/
def renderLatency [Zero α] (u : RUnit α 0 o) (g : Nat → Garb α) (rate duration : ℝ) (s : u.node.σ) : Option (u.node.σ × Wave α) :=
  if 0 < o ∧ 0 ≤ duration then
    let latencySamples := ⌊(u.latency s).getD 0⌋₊
    let latencyDuration := (latencySamples : ℝ) / rate
    let durationSamples := roundNat (duration * rate)
    let duration := (durationSamples : ℝ) / rate
    if 0 < latencySamples then
      (render u g rate (duration + latencyDuration) s).bind fun r =>
        (Wave.zero o rate (roundNat (duration * rate))).bind fun w =>
          (copyFrom r.2 latencySamples durationSamples w).map fun w => (r.1, w)
    else render u g rate duration s
  else none

/-- First loop of `filter`: `wave.rs:528-544`. Returns the unit, the output buffer and the samples. The input buffer keeps old contents after the first `m` samples.
`none` is a read outside the wave. -/
def filterLoop (n : Node α i o) (g : Nat → Garb α) (inputAt : Nat → Nat → Option α) (length t : Nat) (s : n.σ) (inp : Buf α i) (buf : Buf α o) (vec : Fin o → List α) :
    Option (n.σ × Buf α o × (Fin o → List α)) :=
  if t < length then
    let m := min (length - t) 64
    if ∀ c : Fin i, ∀ k : Fin m, (inputAt c (t + k)).isSome = true then
      let inp : Buf α i := fun c k => if k < m then (inputAt c (t + k)).getD (inp c k) else inp c k
      let r := n.process (g t) s m inp buf
      filterLoop n g inputAt length (t + m) r.1 inp r.2 (fun c => vec c ++ (List.range m).map (r.2 c))
    else none
  else some (s, buf, vec)
  termination_by length - t

/-- Second loop of `filter`: `wave.rs:548-559`. -/
def zeroLoop (n : Node α i o) (g : Nat → Garb α) (inp : Buf α i) (length t : Nat) (s : n.σ) (buf : Buf α o) (vec : Fin o → List α) : n.σ × (Fin o → List α) :=
  if t < length then
    let m := min (length - t) 64
    let r := n.process (g t) s m inp buf
    zeroLoop n g inp length (t + m) r.1 r.2 (fun c => vec c ++ (List.range m).map (r.2 c))
  else (s, vec)
  termination_by length - t

/-- `filter`: `wave.rs:516-562`. -/
def filter [Zero α] (w : Wave α) (u : RUnit α i o) (g : Nat → Garb α) (duration : ℝ) (s : u.node.σ) : Option (u.node.σ × Wave α) :=
  if i = w.channels ∧ 0 < o ∧ 0 ≤ duration then
    let total := roundNat (duration * w.rate)
    let inputLength := min total w.len
    (filterLoop u.node g w.at? inputLength 0 (u.setRate w.rate s) (fun _ _ => 0) (fun _ _ => 0) (fun _ => [])).map fun r =>
      let q := zeroLoop u.node g (fun _ _ => 0) total inputLength r.1 r.2.1 r.2.2
      (q.1, ⟨List.ofFn q.2, w.rate, total⟩)
  else none

/-- `filter_latency`: `wave.rs:570-594`. -/
def filterLatency [Zero α] (w : Wave α) (u : RUnit α i o) (g : Nat → Garb α) (duration : ℝ) (s : u.node.σ) : Option (u.node.σ × Wave α) :=
  if i = w.channels ∧ 0 < o ∧ 0 ≤ duration then
    let latencySamples := ⌊(u.latency s).getD 0⌋₊
    let latencyDuration := (latencySamples : ℝ) / w.rate
    let durationSamples := roundNat (duration * w.rate)
    let duration := (durationSamples : ℝ) / w.rate
    if 0 < latencySamples then
      (filter w u g (duration + latencyDuration) s).bind fun r =>
        (Wave.zero o w.rate (roundNat (duration * w.rate))).bind fun w' =>
          (copyFrom r.2 latencySamples durationSamples w').map fun w' => (r.1, w')
    else filter w u g duration s
  else none

/-! ## Helper lemmas -/

theorem flat_range (b : Nat → α) (q : Nat) : ((List.range q).flatMap fun j => (List.range 8).map fun k => b (8 * j + k)) = (List.range (8 * q)).map b := by
  induction q with
  | zero => rfl
  | succ q ih =>
    rw [List.range_succ (n := q), List.flatMap_append, ih, show 8 * (q + 1) = 8 * q + 8 by omega, List.range_add, List.map_append]
    simp only [List.flatMap_cons, List.flatMap_nil, List.append_nil, List.map_map]
    rfl

theorem piece_eq (m : Nat) (b : Nat → α) : piece m b = (List.range m).map b := by
  unfold piece
  have h7 : m &&& 7 = m % 8 := Nat.and_two_pow_sub_one_eq_mod m 3
  have h8 : m >>> 3 = m / 8 := Nat.shiftRight_eq_div_pow m 3
  rw [flat_range, h7, h8]
  conv_rhs => rw [← Nat.div_add_mod m 8, List.range_add, List.map_append, List.map_map]
  congr 1
  apply List.map_congr_left
  intro j _
  show b (m - m % 8 + j) = b (8 * (m / 8) + j)
  congr 1
  omega

/-- Every block of the loop is one call. -/
theorem zeroLoop_exec (n : Node α i o) (g : Nat → Garb α) (inp : Buf α i) (w : Nat → Frame α i) (length : Nat) :
    ∀ d t s buf vec, length - t = d → (∀ c k j, t ≤ k → w k c = inp c j) →
      ∃ cs : List (Call α i o), (∀ c ∈ cs, c.ok) ∧ (∀ c ∈ cs, c ≠ .reset) ∧ schedLen cs = length - t ∧
        zeroLoop n g inp length t s buf vec = ((n.exec w cs t s).1, fun c => vec c ++ (n.exec w cs t s).2.map (· c)) := by
  intro d
  induction d using Nat.strong_induction_on with
  | _ d ih =>
    intro t s buf vec hd hw
    rw [zeroLoop]
    by_cases h : t < length
    · rw [if_pos h]
      simp only
      generalize hm : min (length - t) 64 = m
      have hinp : blockInput w t m inp = inp := by
        funext c k; unfold blockInput; split
        · exact hw c _ k (by omega)
        · rfl
      obtain ⟨cs, h1, h2, h3, h4⟩ := ih (length - (t + m)) (by omega) (t + m) (n.process (g t) s m inp buf).1 (n.process (g t) s m inp buf).2
        (fun c => vec c ++ (List.range m).map ((n.process (g t) s m inp buf).2 c)) rfl (fun c k j hk => hw c k j (by omega))
      refine ⟨.block m inp buf (g t) :: cs, ?_, ?_, ?_, ?_⟩
      · intro c hc
        rcases List.mem_cons.1 hc with rfl | hc
        · show m ≤ 64; omega
        · exact h1 c hc
      · intro c hc
        rcases List.mem_cons.1 hc with rfl | hc
        · exact fun h => by cases h
        · exact h2 c hc
      · show m + schedLen cs = _; omega
      · rw [h4]
        simp only [Node.exec, hinp]
        refine Prod.ext rfl (funext fun c => ?_)
        simp only [List.map_append, List.map_map, List.append_assoc]
        rfl
    · rw [if_neg h]
      refine ⟨[], by simp, by simp, by show 0 = _; omega, ?_⟩
      simp [Node.exec]

theorem renderLoop_eq (n : Node α 0 o) (g : Nat → Garb α) (length : Nat) :
    ∀ d t s buf vec, length - t = d → renderLoop n g length t s buf vec = zeroLoop n g (fun c => c.elim0) length t s buf vec := by
  intro d
  induction d using Nat.strong_induction_on with
  | _ d ih =>
    intro t s buf vec hd
    rw [renderLoop, zeroLoop]
    by_cases h : t < length
    · rw [if_pos h, if_pos h]
      simp only [piece_eq]
      exact ih (length - (t + min (length - t) 64)) (by omega) _ _ _ _ rfl
    · rw [if_neg h, if_neg h]

theorem filterLoop_exec (n : Node α i o) (g : Nat → Garb α) (inputAt : Nat → Nat → Option α) (w : Nat → Frame α i) (length : Nat)
    (hw : ∀ (c : Fin i) k, k < length → inputAt c k = some (w k c)) :
    ∀ d t s inp buf vec, length - t = d →
      ∃ cs : List (Call α i o), (∀ c ∈ cs, c.ok) ∧ (∀ c ∈ cs, c ≠ .reset) ∧ schedLen cs = length - t ∧
        ∃ buf', filterLoop n g inputAt length t s inp buf vec = some ((n.exec w cs t s).1, buf', fun c => vec c ++ (n.exec w cs t s).2.map (· c)) := by
  intro d
  induction d using Nat.strong_induction_on with
  | _ d ih =>
    intro t s inp buf vec hd
    rw [filterLoop]
    by_cases h : t < length
    · rw [if_pos h]
      simp only
      generalize hm : min (length - t) 64 = m
      rw [if_pos (by intro c k; rw [hw c _ (by omega)]; rfl)]
      have hinp : (fun (c : Fin i) k => if k < m then (inputAt c (t + k)).getD (inp c k) else inp c k) = blockInput w t m inp := by
        funext c k; unfold blockInput; split
        · rw [hw c _ (by omega)]; rfl
        · rfl
      rw [hinp]
      obtain ⟨cs, h1, h2, h3, b, h4⟩ := ih (length - (t + m)) (by omega) (t + m) (n.process (g t) s m (blockInput w t m inp) buf).1 (blockInput w t m inp) (n.process (g t) s m (blockInput w t m inp) buf).2
        (fun c => vec c ++ (List.range m).map ((n.process (g t) s m (blockInput w t m inp) buf).2 c)) rfl
      refine ⟨.block m inp buf (g t) :: cs, ?_, ?_, ?_, b, ?_⟩
      · intro c hc
        rcases List.mem_cons.1 hc with rfl | hc
        · show m ≤ 64; omega
        · exact h1 c hc
      · intro c hc
        rcases List.mem_cons.1 hc with rfl | hc
        · exact fun h => by cases h
        · exact h2 c hc
      · show m + schedLen cs = _; omega
      · rw [h4]
        simp only [Node.exec]
        refine congrArg some (Prod.ext rfl (Prod.ext rfl (funext fun c => ?_)))
        simp only [List.map_append, List.map_map, List.append_assoc]
        rfl
    · rw [if_neg h]
      refine ⟨[], by simp, by simp, by show 0 = _; omega, buf, ?_⟩
      simp [Node.exec]

/-- Calls without resets are as many ticks. -/
theorem unblock_ticks (cs : List (Call α i o)) (h : ∀ c ∈ cs, c ≠ .reset) : unblock cs = List.replicate (schedLen cs) .tick := by
  induction cs with
  | nil => rfl
  | cons c cs ih =>
    have ih := ih (fun c hc => h c (List.mem_cons_of_mem _ hc))
    cases c with
    | tick => simp only [unblock, schedLen, Call.len, ih, Nat.add_comm 1, List.replicate_succ]
    | reset => exact absurd rfl (h _ List.mem_cons_self)
    | block size tail old g =>
      simp only [unblock, schedLen, Call.len, ih]
      rw [List.replicate_append_replicate]

theorem exec_stream {n : Node α i o} {s : n.σ} (hb : BlockEqualsTickOn n (· = s)) (w : Nat → Frame α i) {cs : List (Call α i o)} (h1 : ∀ c ∈ cs, c.ok) (h2 : ∀ c ∈ cs, c ≠ .reset) :
    (n.exec w cs 0 s).2 = (List.range (schedLen cs)).map (n.stream s w) := by
  rw [hb w cs h1 s rfl, unblock_ticks cs h2]
  have := exec_replicate_tick n w (schedLen cs) [] 0 s
  rw [List.append_nil] at this
  rw [this]
  simp only [Node.exec, List.append_nil, Nat.zero_add]
  rfl

/-- The wave with the samples of a stream. -/
theorem ofFn_tab (rate : ℝ) (len : Nat) (st : Nat → Frame α o) [Inhabited α] :
    (⟨List.ofFn fun c : Fin o => (List.range len).map fun k => st k c, rate, len⟩ : Wave α) = tab rate o len (fun c k => if h : c < o then st k ⟨c, h⟩ else default) := by
  unfold tab
  congr 1
  apply List.ext_getElem
  · simp
  · intro c h1 h2
    simp only [List.length_ofFn] at h1
    simp only [List.getElem_ofFn, List.getElem_map, List.getElem_range, dif_pos h1]

theorem roundNat_nat (n : Nat) : roundNat n = n := by
  unfold roundNat
  rw [Nat.floor_eq_iff (by positivity)]
  constructor <;> linarith

theorem copyFrom_tab {rate rate' : ℝ} {n len total offset : Nat} {f f' : Nat → Nat → α} (h : len + offset ≤ total) :
    copyFrom (tab rate' n total f) offset len (tab rate n len f') = some (tab rate n len fun c k => f c (k + offset)) := by
  unfold copyFrom
  rw [tab_channels]
  obtain ⟨y, hy, hI⟩ := forRange_spec
    (I := fun c x => x = tab rate n len (fun c' k => if c' < c then f c' (k + offset) else f' c' k))
    (f := fun c w => forRange 0 len (fun k w => ((tab rate' n total f).at? c (k + offset)).bind fun x => w.set c k x) w) (a := 0) (b := n) (x := tab rate n len f')
    (by
      intro c _ hc x hx
      obtain ⟨y, hy, hI⟩ := forRange_spec
        (I := fun j x => x = tab rate n len (fun c' k => if c' < c ∨ c' = c ∧ k < j then f c' (k + offset) else f' c' k))
        (f := fun k w => ((tab rate' n total f).at? c (k + offset)).bind fun x => w.set c k x) (a := 0) (b := len) (x := x)
        (by
          intro j _ hj x hx
          rw [tab_at, if_pos ⟨hc, by omega⟩, hx]
          refine ⟨_, tab_set hc hj _, ?_⟩
          apply tab_congr
          intro c' k hc' hk
          by_cases h1 : c' = c ∧ k = j
          · rw [if_pos h1, if_pos (by omega), h1.1, h1.2]
          · rw [if_neg h1]
            by_cases h2 : c' < c ∨ c' = c ∧ k < j
            · rw [if_pos h2, if_pos (by omega)]
            · rw [if_neg h2, if_neg (by omega)]) (Nat.zero_le _)
        (by
          rw [hx]
          apply tab_congr
          intro c' k _ _
          simp)
      refine ⟨y, hy, ?_⟩
      rw [hI]
      apply tab_congr
      intro c' k _ hk
      by_cases h1 : c' < c + 1
      · rw [if_pos h1, if_pos (by omega)]
      · rw [if_neg h1, if_neg (by omega)]) (Nat.zero_le _)
    (by
      apply tab_congr
      intro c' k _ _
      simp)
  rw [hy, hI]
  congr 1
  apply tab_congr
  intro c k hc _
  rw [if_pos hc]

theorem zero_tab [Zero α] {channels : Nat} (rate : ℝ) (length : Nat) (h : 0 < channels) : (Wave.zero channels rate length : Option (Wave α)) = some (tab rate channels length fun _ _ => 0) := by
  unfold Wave.zero
  rw [if_pos (Or.inl h)]
  unfold tab
  simp

theorem render_tab [Zero α] [Inhabited α] (u : RUnit α 0 o) (g : Nat → Garb α) (rate duration : ℝ) (s : u.node.σ) (ho : 0 < o) (hd : 0 ≤ duration)
    (hb : BlockEqualsTickOn u.node (· = u.setRate rate s)) :
    ∃ s', render u g rate duration s =
      some (s', tab rate o (roundNat (duration * rate)) (fun c k => if h : c < o then u.node.stream (u.setRate rate s) (fun _ c => c.elim0) k ⟨c, h⟩ else default)) := by
  unfold render
  rw [if_pos ⟨ho, hd⟩]
  simp only
  rw [renderLoop_eq _ _ _ _ _ _ _ _ rfl]
  obtain ⟨cs, h1, h2, h3, h4⟩ := zeroLoop_exec u.node g (fun c => c.elim0) (fun _ c => c.elim0) (roundNat (duration * rate)) _ 0 (u.setRate rate s) (fun _ _ => 0) (fun _ => []) rfl (fun c => c.elim0)
  rw [h4]
  refine ⟨(u.node.exec (fun _ c => c.elim0) cs 0 (u.setRate rate s)).1, ?_⟩
  rw [← ofFn_tab]
  congr 4
  funext c
  simp only [List.nil_append]
  rw [exec_stream hb _ h1 h2, h3, Nat.sub_zero, List.map_map]
  rfl

/-! ## Property theorems -/

/-- The units whose blocks equal their ticks from the given state; see C14 to C17. -/
abbrev Regular (n : Node α i o) (s : n.σ) : Prop := BlockEqualsTickOn n (· = s)

/-- **C58, render.** Rendering gives one channel per output and exactly the first `round(duration * rate)` samples of the unit, whose rate is set first. Accepted for units
with outputs and nonnegative durations. -/
theorem C58_render [Zero α] (u : RUnit α 0 o) (g : Nat → Garb α) (rate duration : ℝ) (s : u.node.σ) (ho : 0 < o) (hd : 0 ≤ duration)
    (hb : Regular u.node (u.setRate rate s)) :
    ∃ s' w, render u g rate duration s = some (s', w) ∧ w.Wf ∧ w.rate = rate ∧ w.channels = o ∧ w.len = roundNat (duration * rate) ∧
      ∀ (c : Fin o) k, w.at? c k = if k < w.len then some (u.node.stream (u.setRate rate s) (fun _ c => c.elim0) k c) else none := by
  have : Inhabited α := ⟨0⟩
  obtain ⟨s', h⟩ := render_tab u g rate duration s ho hd hb
  refine ⟨s', _, h, tab_wf (by omega), rfl, tab_channels _ _ _ _, rfl, fun c k => ?_⟩
  rw [tab_at]
  simp only [c.isLt, true_and, dif_pos]
  rfl

/-- **C58, render with latency.** The first `floor(latency)` samples of the unit are dropped and the wave has the requested length. Missing from the full claim: the latency is
that of the unit before its rate is set (`C58_violation_rate`), and the unit is not reset (`C58_violation_reset`). -/
theorem C58_render_latency_partial [Zero α] (u : RUnit α 0 o) (g : Nat → Garb α) (rate duration : ℝ) (s : u.node.σ) (ho : 0 < o) (hd : 0 ≤ duration) (hr : 0 < rate)
    (hb : Regular u.node (u.setRate rate s)) :
    ∃ s' w, renderLatency u g rate duration s = some (s', w) ∧ w.Wf ∧ w.rate = rate ∧ w.channels = o ∧ w.len = roundNat (duration * rate) ∧
      ∀ (c : Fin o) k, w.at? c k = if k < w.len then some (u.node.stream (u.setRate rate s) (fun _ c => c.elim0) (k + ⌊(u.latency s).getD 0⌋₊) c) else none := by
  have : Inhabited α := ⟨0⟩
  unfold renderLatency
  rw [if_pos ⟨ho, hd⟩]
  simp only
  generalize ⌊(u.latency s).getD 0⌋₊ = L
  generalize hN : roundNat (duration * rate) = N
  have e1 : ((N : ℝ) / rate) * rate = N := by field_simp
  have e2 : ((N : ℝ) / rate + (L : ℝ) / rate) * rate = ((N + L : Nat) : ℝ) := by push_cast; field_simp
  by_cases hL : 0 < L
  · rw [if_pos hL]
    obtain ⟨s', h⟩ := render_tab u g rate ((N : ℝ) / rate + (L : ℝ) / rate) s ho (by positivity) hb
    rw [h, e1, e2, roundNat_nat, roundNat_nat, Option.bind_some, zero_tab _ _ ho, Option.bind_some, copyFrom_tab (le_refl _)]
    refine ⟨s', _, rfl, tab_wf (by omega), rfl, tab_channels _ _ _ _, rfl, fun c k => ?_⟩
    rw [tab_at]
    simp only [c.isLt, true_and, dif_pos]
    rfl
  · rw [if_neg hL]
    have : L = 0 := by omega
    subst this
    obtain ⟨s', h⟩ := render_tab u g rate ((N : ℝ) / rate) s ho (by positivity) hb
    rw [e1, roundNat_nat] at h
    refine ⟨s', _, h, tab_wf (by omega), rfl, tab_channels _ _ _ _, rfl, fun c k => ?_⟩
    rw [tab_at]
    simp only [c.isLt, true_and, dif_pos]
    rfl

/-- The input stream of a filter: the wave, then zeros. -/
def inputOf [Zero α] (w : Wave α) (i : Nat) : Nat → Frame α i := fun k c => (w.at? c k).getD 0

theorem filter_tab [Zero α] [Inhabited α] (w : Wave α) (hw : w.Wf) (u : RUnit α i o) (g : Nat → Garb α) (duration : ℝ) (s : u.node.σ) (hi : i = w.channels) (ho : 0 < o) (hd : 0 ≤ duration)
    (hb : BlockEqualsTickOn u.node (· = u.setRate w.rate s)) :
    ∃ s', filter w u g duration s =
      some (s', tab w.rate o (roundNat (duration * w.rate)) (fun c k => if h : c < o then u.node.stream (u.setRate w.rate s) (inputOf w i) k ⟨c, h⟩ else default)) := by
  have hwf : w.Wf := hw
  unfold filter
  rw [if_pos ⟨hi, ho, hd⟩]
  simp only
  generalize hT : roundNat (duration * w.rate) = T
  have hat : ∀ (c : Fin i) k, k < w.len → w.at? c k = some (inputOf w i k c) := by
    intro c k hk
    have hc : (c : Nat) < w.vec.length := by have := c.isLt; unfold Wave.channels at hi; omega
    have : ∃ x, w.at? c k = some x := by
      unfold Wave.at?
      rw [List.getElem?_eq_getElem hc]
      exact ⟨_, List.getElem?_eq_getElem (by rw [hwf.1 _ (List.getElem_mem hc)]; exact hk)⟩
    obtain ⟨x, hx⟩ := this
    unfold inputOf
    rw [hx]; rfl
  have hzero : ∀ (c : Fin i) k, w.len ≤ k → inputOf w i k c = 0 := by
    intro c k hk
    have hc : (c : Nat) < w.vec.length := by have := c.isLt; unfold Wave.channels at hi; omega
    unfold inputOf Wave.at?
    rw [List.getElem?_eq_getElem hc]
    show ((w.vec[(c : Nat)])[k]?).getD 0 = 0
    rw [List.getElem?_eq_none (by rw [hwf.1 _ (List.getElem_mem hc)]; exact hk)]; rfl
  obtain ⟨cs, h1, h2, h3, b, h4⟩ := filterLoop_exec u.node g w.at? (inputOf w i) (min T w.len) (fun c k hk => hat c k (by omega)) _ 0 (u.setRate w.rate s) (fun _ _ => 0) (fun _ _ => 0) (fun _ => []) rfl
  rw [h4]
  simp only [Option.map_some]
  by_cases hlt : w.len < T
  · obtain ⟨ds, k1, k2, k3, k4⟩ := zeroLoop_exec u.node g (fun _ _ => 0) (inputOf w i) T _ (min T w.len) (u.node.exec (inputOf w i) cs 0 (u.setRate w.rate s)).1 b
      (fun c => [] ++ (u.node.exec (inputOf w i) cs 0 (u.setRate w.rate s)).2.map (· c)) rfl (fun c k j hk => hzero c k (by omega))
    rw [k4]
    have hsl : ∀ cs ds : List (Call α i o), schedLen (cs ++ ds) = schedLen cs + schedLen ds := by
      intro cs ds
      induction cs with
      | nil => simp [schedLen]
      | cons c cs ih => simp only [List.cons_append, schedLen, ih]; omega
    have he := exec_append u.node (inputOf w i) cs ds 0 (u.setRate w.rate s)
    rw [h3, Nat.zero_add, Nat.sub_zero] at he
    have hs := exec_stream hb (inputOf w i) (cs := cs ++ ds)
      (fun c hc => (List.mem_append.1 hc).elim (h1 c) (k1 c)) (fun c hc => (List.mem_append.1 hc).elim (h2 c) (k2 c))
    rw [hsl, h3, k3, show min T w.len - 0 + (T - min T w.len) = T by omega] at hs
    refine ⟨(u.node.exec (inputOf w i) ds (min T w.len) (u.node.exec (inputOf w i) cs 0 (u.setRate w.rate s)).1).1, ?_⟩
    rw [← ofFn_tab]
    congr 4
    funext c
    simp only [List.nil_append]
    rw [← List.map_append]
    refine (congrArg (List.map (· c)) ((congrArg Prod.snd he).symm.trans hs)).trans ?_
    rw [List.map_map]
    rfl
  · have hmin : min T w.len = T := by omega
    rw [hmin] at h3 ⊢
    rw [zeroLoop, if_neg (lt_irrefl _)]
    refine ⟨(u.node.exec (inputOf w i) cs 0 (u.setRate w.rate s)).1, ?_⟩
    rw [← ofFn_tab]
    congr 4
    funext c
    simp only [List.nil_append]
    rw [exec_stream hb _ h1 h2, h3, List.map_map]
    rfl

/-- **C58, filter.** Filtering a wave gives exactly the first `round(duration * rate)` samples of the unit fed with the wave followed by silence. Accepted for units with outputs
and as many inputs as the wave has channels, and nonnegative durations. -/
theorem C58_filter [Zero α] (w : Wave α) (hw : w.Wf) (u : RUnit α i o) (g : Nat → Garb α) (duration : ℝ) (s : u.node.σ) (hi : i = w.channels) (ho : 0 < o) (hd : 0 ≤ duration)
    (hb : Regular u.node (u.setRate w.rate s)) :
    ∃ s' w', filter w u g duration s = some (s', w') ∧ w'.Wf ∧ w'.rate = w.rate ∧ w'.channels = o ∧ w'.len = roundNat (duration * w.rate) ∧
      ∀ (c : Fin o) k, w'.at? c k = if k < w'.len then some (u.node.stream (u.setRate w.rate s) (inputOf w i) k c) else none := by
  have : Inhabited α := ⟨0⟩
  obtain ⟨s', h⟩ := filter_tab w hw u g duration s hi ho hd hb
  refine ⟨s', _, h, tab_wf (by omega), rfl, tab_channels _ _ _ _, rfl, fun c k => ?_⟩
  rw [tab_at]
  simp only [c.isLt, true_and, dif_pos]
  rfl

/-- **C58, filter with latency.** As for rendering; the latency is that of the unit before its rate is set. -/
theorem C58_filter_latency_partial [Zero α] (w : Wave α) (hw : w.Wf) (u : RUnit α i o) (g : Nat → Garb α) (duration : ℝ) (s : u.node.σ) (hi : i = w.channels) (ho : 0 < o) (hd : 0 ≤ duration)
    (hr : 0 < w.rate) (hb : Regular u.node (u.setRate w.rate s)) :
    ∃ s' w', filterLatency w u g duration s = some (s', w') ∧ w'.Wf ∧ w'.rate = w.rate ∧ w'.channels = o ∧ w'.len = roundNat (duration * w.rate) ∧
      ∀ (c : Fin o) k, w'.at? c k = if k < w'.len then some (u.node.stream (u.setRate w.rate s) (inputOf w i) (k + ⌊(u.latency s).getD 0⌋₊) c) else none := by
  have : Inhabited α := ⟨0⟩
  unfold filterLatency
  rw [if_pos ⟨hi, ho, hd⟩]
  simp only
  generalize ⌊(u.latency s).getD 0⌋₊ = L
  generalize hN : roundNat (duration * w.rate) = N
  have e1 : ((N : ℝ) / w.rate) * w.rate = N := by field_simp
  have e2 : ((N : ℝ) / w.rate + (L : ℝ) / w.rate) * w.rate = ((N + L : Nat) : ℝ) := by push_cast; field_simp
  by_cases hL : 0 < L
  · rw [if_pos hL]
    obtain ⟨s', h⟩ := filter_tab w hw u g ((N : ℝ) / w.rate + (L : ℝ) / w.rate) s hi ho (by positivity) hb
    rw [h, e1, e2, roundNat_nat, roundNat_nat, Option.bind_some, zero_tab _ _ ho, Option.bind_some, copyFrom_tab (le_refl _)]
    refine ⟨s', _, rfl, tab_wf (by omega), rfl, tab_channels _ _ _ _, rfl, fun c k => ?_⟩
    rw [tab_at]
    simp only [c.isLt, true_and, dif_pos]
    rfl
  · rw [if_neg hL]
    have : L = 0 := by omega
    subst this
    obtain ⟨s', h⟩ := filter_tab w hw u g ((N : ℝ) / w.rate) s hi ho (by positivity) hb
    rw [e1, roundNat_nat] at h
    refine ⟨s', _, h, tab_wf (by omega), rfl, tab_channels _ _ _ _, rfl, fun c k => ?_⟩
    rw [tab_at]
    simp only [c.isLt, true_and, dif_pos]
    rfl

/-! ### A unit with a delay -/

/-- A ramp `1, 2, 3, ..` that starts after a delay of one second, as in `lfo(ramp) >> delay(1.0)`. The state is the delay in samples and the age. -/
def delayedRamp : RUnit ℝ 0 1 where
  node := Node.ofTick (Nat × Nat) (fun s => (s.1, 0)) (fun s _ => ((s.1, s.2 + 1), fun _ => ((s.2 + 1 - s.1 : Nat) : ℝ)))
  setRate := fun r s => (roundNat r, s.2)
  latency := fun s => some (s.1 : ℝ)

theorem delayedRamp_stream (s : Nat × Nat) (w : Nat → Frame ℝ 0) (k : Nat) : delayedRamp.node.stream s w k = fun _ => ((s.2 + k + 1 - s.1 : Nat) : ℝ) := by
  have : ∀ k, delayedRamp.node.ticks.st s w k = (s.1, s.2 + k) := by
    intro k
    induction k with
    | zero => rfl
    | succ k ih => show (delayedRamp.node.tick (delayedRamp.node.ticks.st s w k) (w k)).1 = _; rw [ih]; rfl
  show (delayedRamp.node.tick (delayedRamp.node.ticks.st s w k) (w k)).2 = _
  rw [this]; rfl

theorem delayedRamp_regular (s : Nat × Nat) : Regular delayedRamp.node s := fun w cs hc s _ => (tickBlock_iff _).1 (tickBlock_ofTick _ _) w cs hc s

/-- The unit drops its latency when its rate does not change. -/
example (g : Nat → Garb ℝ) : ∃ s' w, renderLatency delayedRamp g 100 2 (100, 0) = some (s', w) ∧ w.len = 200 ∧ w.at? 0 0 = some 1 := by
  have e : roundNat 100 = 100 := by exact_mod_cast roundNat_nat 100
  have e2 : roundNat (2 * 100) = 200 := by rw [show (2 * 100 : ℝ) = ((200 : Nat) : ℝ) by norm_num]; exact roundNat_nat 200
  obtain ⟨s', w, h, -, -, -, hl, hw⟩ := C58_render_latency_partial delayedRamp g 100 2 (100, 0) (by norm_num) (by norm_num) (by norm_num) (delayedRamp_regular _)
  refine ⟨s', w, h, hl.trans e2, ?_⟩
  have := hw 0 0
  rw [hl, e2, if_pos (by norm_num)] at this
  refine (this.trans (congrArg some (congrFun (delayedRamp_stream _ _ _) 0))).trans ?_
  show some (((0 + (0 + ⌊((100 : Nat) : ℝ)⌋₊) + 1 - roundNat 100 : Nat)) : ℝ) = some 1
  rw [Nat.floor_natCast, e]; norm_num

/-- **C58 fails** when the rate of the unit changes: the latency at the old rate is dropped. A unit made for 44100 Hz and rendered at 100 Hz loses 44000 samples of its signal. -/
theorem C58_violation_rate (g : Nat → Garb ℝ) :
    ∃ s' w, renderLatency delayedRamp g 100 2 (44100, 0) = some (s', w) ∧
      w.at? 0 0 ≠ some (delayedRamp.node.stream (delayedRamp.setRate 100 (44100, 0)) (fun _ c => c.elim0) ⌊(delayedRamp.latency (delayedRamp.setRate 100 (44100, 0))).getD 0⌋₊ 0) := by
  have e : roundNat 100 = 100 := by exact_mod_cast roundNat_nat 100
  have e2 : roundNat (2 * 100) = 200 := by rw [show (2 * 100 : ℝ) = ((200 : Nat) : ℝ) by norm_num]; exact roundNat_nat 200
  obtain ⟨s', w, h, -, -, -, hl, hw⟩ := C58_render_latency_partial delayedRamp g 100 2 (44100, 0) (by norm_num) (by norm_num) (by norm_num) (delayedRamp_regular _)
  refine ⟨s', w, h, ?_⟩
  have := hw 0 0
  rw [hl, e2, if_pos (by norm_num)] at this
  have h1 : w.at? 0 0 = some (((0 + (0 + ⌊((44100 : Nat) : ℝ)⌋₊) + 1 - roundNat 100 : Nat)) : ℝ) := this.trans (congrArg some (congrFun (delayedRamp_stream _ _ _) 0))
  rw [h1]
  refine fun hc => absurd (hc.trans (congrArg some (congrFun (delayedRamp_stream _ _ _) 0))) ?_
  show ¬ some _ = some (((0 + ⌊((roundNat 100 : Nat) : ℝ)⌋₊ + 1 - roundNat 100 : Nat)) : ℝ)
  rw [Nat.floor_natCast, Nat.floor_natCast, e]
  norm_num

/-- **C58 fails** for units that have been used: rendering with latency does not reset them, against its documentation. -/
theorem C58_violation_reset (g : Nat → Garb ℝ) :
    ∃ s' w, renderLatency delayedRamp g 100 2 (100, 7) = some (s', w) ∧
      w.at? 0 0 ≠ some (delayedRamp.node.stream (delayedRamp.node.reset (delayedRamp.setRate 100 (100, 7))) (fun _ c => c.elim0) ⌊(delayedRamp.latency (100, 7)).getD 0⌋₊ 0) := by
  have e : roundNat 100 = 100 := by exact_mod_cast roundNat_nat 100
  have e2 : roundNat (2 * 100) = 200 := by rw [show (2 * 100 : ℝ) = ((200 : Nat) : ℝ) by norm_num]; exact roundNat_nat 200
  obtain ⟨s', w, h, -, -, -, hl, hw⟩ := C58_render_latency_partial delayedRamp g 100 2 (100, 7) (by norm_num) (by norm_num) (by norm_num) (delayedRamp_regular _)
  refine ⟨s', w, h, ?_⟩
  have := hw 0 0
  rw [hl, e2, if_pos (by norm_num)] at this
  have h1 : w.at? 0 0 = some (((7 + (0 + ⌊((100 : Nat) : ℝ)⌋₊) + 1 - roundNat 100 : Nat)) : ℝ) := this.trans (congrArg some (congrFun (delayedRamp_stream _ _ _) 0))
  rw [h1]
  refine fun hc => absurd (hc.trans (congrArg some (congrFun (delayedRamp_stream _ _ _) 0))) ?_
  show ¬ some _ = some (((0 + ⌊((100 : Nat) : ℝ)⌋₊ + 1 - roundNat 100 : Nat)) : ℝ)
  rw [Nat.floor_natCast, e]
  norm_num

end Fundsp.Wv
