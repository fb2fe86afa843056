import Verif.Reverb.Model
import Verif.Filter.Energy
import Verif.Core.ResetProps
import Mathlib.Topology.Algebra.InfiniteSum.Real
import Mathlib.Topology.Instances.Real.Lemmas
import Mathlib.Tactic.NormNum
/-! Property C76: the allpass loop reverb is stable. -/

namespace Fundsp.Reverb
open Fundsp.Filter Delay

/-- Specification of a loop filter that does not amplify: there is a stored energy, zero in the initial state `f`, such that at every sample output energy
plus stored energy after is at most input energy plus stored energy before. -/
structure PassiveFrom (F : Node ℝ 1 1) (P : F.σ → Prop) (V : F.σ → ℝ) (f : F.σ) : Prop where
  init : P f
  rest : V f = 0
  closed : ∀ s x, P s → P (F.tick s x).1
  nonneg : ∀ s, P s → 0 ≤ V s
  balance : ∀ s x, P s → (F.tick s x).2 0 ^ 2 + V (F.tick s x).1 ≤ x 0 ^ 2 + V s

/-! ## Energy of the parts -/

def SchGood (s : Sch) : Prop := Line.Valid s.x ∧ 1 ≤ (s.x : Line ℝ).buf.length ∧ (s.x : Line ℝ).buf.length < 2 ^ 64 ∧ |s.eta| < 1

noncomputable def schV (s : Sch) : ℝ := (1 - s.eta ^ 2) * (s.z ^ 2 + delayEnergy ((s.x : Line ℝ).buf.length - 1) s.x)

theorem sch_step (s : Sch) (h : SchGood s) (x : ℝ) :
    SchGood (Sch.tick s x).1 ∧ (Sch.tick s x).2 ^ 2 + schV (Sch.tick s x).1 = x ^ 2 + schV s := by
  obtain ⟨h1, h2, h3, h4⟩ := h
  obtain ⟨d, hd⟩ : ∃ d, d = (s.x : Line ℝ).buf.length - 1 := ⟨_, rfl⟩
  have hl : (s.x : Line ℝ).buf.length = d + 1 := by omega
  have L := C40_allnest (delay_lossless d (by omega)) s.eta h4
  have hc := L.closed s (fun _ => x) ⟨⟨h1, hl⟩, rfl⟩
  have hb := L.balance s (fun _ => x) ⟨⟨h1, hl⟩, rfl⟩
  obtain ⟨t, ht⟩ : ∃ t : Sch, t = (Sch.tick s x).1 := ⟨_, rfl⟩
  have hc' : (Line.Valid t.x ∧ (t.x : Line ℝ).buf.length = d + 1) ∧ t.eta = s.eta := by rw [ht]; exact hc
  rw [← ht]
  refine ⟨⟨hc'.1.1, by rw [hc'.1.2]; omega, by rw [hc'.1.2]; omega, by rw [hc'.2]; exact h4⟩, ?_⟩
  have hb' : (Sch.tick s x).2 ^ 2 + (1 - s.eta ^ 2) * (t.z ^ 2 + delayEnergy d t.x) = x ^ 2 + (1 - s.eta ^ 2) * (s.z ^ 2 + delayEnergy d s.x) := by
    rw [ht]; exact hb
  unfold schV
  rw [hc'.1.2, hc'.2, hl]
  exact hb'

theorem schV_nonneg (s : Sch) (h : SchGood s) : 0 ≤ schV s := by
  have h1 : s.eta ^ 2 < 1 := (sq_lt_one_iff_abs_lt_one _).2 h.2.2.2
  exact mul_nonneg (by linarith) (add_nonneg (sq_nonneg _) (Finset.sum_nonneg fun j _ => sq_nonneg _))

noncomputable def chainV (l : List Sch) : ℝ := (l.map schV).sum

theorem chain_step (l : List Sch) (h : ∀ s ∈ l, SchGood s) (x : ℝ) :
    (∀ s ∈ (chainTick l x).1, SchGood s) ∧ (chainTick l x).2 ^ 2 + chainV (chainTick l x).1 = x ^ 2 + chainV l := by
  induction l generalizing x with
  | nil => exact ⟨h, rfl⟩
  | cons s l ih =>
    have h1 := sch_step s (h s List.mem_cons_self) x
    have h2 := ih (fun t ht => h t (List.mem_cons_of_mem _ ht)) ((Sch.tick s x).2)
    refine ⟨?_, ?_⟩
    · intro t ht
      rcases List.mem_cons.1 ht with rfl | ht
      · exact h1.1
      · exact h2.1 t ht
    · have e : chainV (chainTick (s :: l) x).1 = schV (Sch.tick s x).1 + chainV (chainTick l ((Sch.tick s x).2)).1 := by
        show (List.map schV ((Sch.tick s x).1 :: (chainTick l ((Sch.tick s x).2)).1)).sum = _
        rw [List.map_cons, List.sum_cons]; rfl
      have e2 : chainV (s :: l) = schV s + chainV l := by simp [chainV]
      rw [e, e2]
      show (chainTick l ((Sch.tick s x).2)).2 ^ 2 + _ = _
      linarith [h1.2, h2.2]

theorem chainV_nonneg (l : List Sch) (h : ∀ s ∈ l, SchGood s) : 0 ≤ chainV l :=
  List.sum_nonneg (fun v hv => by obtain ⟨s, hs, rfl⟩ := List.mem_map.1 hv; exact schV_nonneg s (h s hs))

section
variable {F : Node ℝ 1 1} {PF : F.σ → Prop} {VF : F.σ → ℝ} {f : F.σ}

theorem half_step (hF : PassiveFrom F PF VF f) (l : List Sch) (h : ∀ s ∈ l, SchGood s) (u : F.σ) (hu : PF u) (x : ℝ) :
    (∀ s ∈ (halfTick F l u x).1.1, SchGood s) ∧ PF (halfTick F l u x).1.2 ∧
    (halfTick F l u x).2 ^ 2 + (chainV (halfTick F l u x).1.1 + VF (halfTick F l u x).1.2) ≤ x ^ 2 + (chainV l + VF u) := by
  have h1 := chain_step l h x
  have h2 := hF.balance u (fun _ => (chainTick l x).2) hu
  refine ⟨h1.1, hF.closed _ _ hu, ?_⟩
  show (F.tick u (fun _ => (chainTick l x).2)).2 0 ^ 2 + (chainV (chainTick l x).1 + VF (F.tick u (fun _ => (chainTick l x).2)).1) ≤ _
  have h3 := h1.2
  linarith

def BlockGood (PF : F.σ → Prop) (b : RBlock F) : Prop :=
  (∀ s ∈ b.allpass0, SchGood s) ∧ (∀ s ∈ b.allpass1, SchGood s) ∧ PF b.filter0 ∧ PF b.filter1 ∧ b.delay.Valid ∧ 1 ≤ b.delay.buf.length ∧ b.delay.buf.length < 2 ^ 64

/-- Stored energy of a block. -/
noncomputable def blockV (VF : F.σ → ℝ) (a : ℝ) (b : RBlock F) : ℝ :=
  (chainV b.allpass0 + VF b.filter0) + (chainV b.allpass1 + VF b.filter1) + a * delayEnergy (b.delay.buf.length - 1) b.delay

theorem delay_step (s : Line ℝ) (h1 : s.Valid) (h2 : 1 ≤ s.buf.length) (h3 : s.buf.length < 2 ^ 64) (x : ℝ) :
    let t : Line ℝ := (lineTick s x).1
    t.Valid ∧ t.buf.length = s.buf.length ∧
    (lineTick s x).2 ^ 2 + delayEnergy (t.buf.length - 1) t = x ^ 2 + delayEnergy (s.buf.length - 1) s := by
  intro t
  obtain ⟨d, hd⟩ : ∃ d, d = s.buf.length - 1 := ⟨_, rfl⟩
  have hl : s.buf.length = d + 1 := by omega
  have L := delay_lossless d (by omega)
  have hc := L.closed s (fun _ => x) ⟨h1, hl⟩
  have hb := L.balance s (fun _ => x) ⟨h1, hl⟩
  have hc' : t.Valid ∧ t.buf.length = d + 1 := hc
  refine ⟨hc'.1, by rw [hc'.2, hl], ?_⟩
  rw [hc'.2, hl]
  exact hb

/-- Adding the input to the attenuated loop signal. -/
theorem mix_sq {a : ℝ} (h0 : 0 ≤ a) (h1 : a < 1) (v i : ℝ) : (a * v + i) ^ 2 ≤ a * v ^ 2 + i ^ 2 / (1 - a) := by
  have h : 0 < 1 - a := by linarith
  have e : a * v ^ 2 + i ^ 2 / (1 - a) - (a * v + i) ^ 2 = a / (1 - a) * ((1 - a) * v - i) ^ 2 := by field_simp; ring
  have : 0 ≤ a / (1 - a) * ((1 - a) * v - i) ^ 2 := by positivity
  linarith

theorem block_step (hF : PassiveFrom F PF VF f) {a : ℝ} (h0 : 0 ≤ a) (h1 : a < 1) (b : RBlock F) (h : BlockGood PF b) (v i0 i1 : ℝ) :
    BlockGood PF (b.tick a v i0 i1).1 ∧
    (1 - a) * ((b.tick a v i0 i1).2.1 ^ 2 + (b.tick a v i0 i1).2.2 ^ 2) + blockV VF a (b.tick a v i0 i1).1 + a * (b.tick a v i0 i1).2.2 ^ 2
      ≤ blockV VF a b + a * v ^ 2 + (i0 ^ 2 + i1 ^ 2) / (1 - a) := by
  obtain ⟨g1, g2, g3, g4, g5, g6, g7⟩ := h
  obtain ⟨d1, d2, d3⟩ := delay_step b.delay g5 g6 g7 v
  obtain ⟨vd, hvd⟩ : ∃ vd, vd = (lineTick b.delay v).2 := ⟨_, rfl⟩
  have p := half_step hF b.allpass0 g1 b.filter0 g3 (a * vd + i0)
  obtain ⟨w0, hw0⟩ : ∃ w0, w0 = (halfTick F b.allpass0 b.filter0 (a * vd + i0)).2 := ⟨_, rfl⟩
  have q := half_step hF b.allpass1 g2 b.filter1 g4 (a * w0 + i1)
  have m0 := mix_sq h0 h1 vd i0
  have m1 := mix_sq h0 h1 w0 i1
  have et : b.tick a v i0 i1 = (⟨(halfTick F b.allpass0 b.filter0 (a * vd + i0)).1.1, (halfTick F b.allpass1 b.filter1 (a * w0 + i1)).1.1,
      (halfTick F b.allpass0 b.filter0 (a * vd + i0)).1.2, (halfTick F b.allpass1 b.filter1 (a * w0 + i1)).1.2,
      (lineTick b.delay v).1⟩, w0, (halfTick F b.allpass1 b.filter1 (a * w0 + i1)).2) := by
    rw [hw0, hvd]; rfl
  rw [et]
  refine ⟨⟨p.1, q.1, p.2.1, q.2.1, d1, by rw [d2]; exact g6, by rw [d2]; exact g7⟩, ?_⟩
  unfold blockV
  simp only
  have p3 := p.2.2
  have q3 := q.2.2
  rw [← hw0] at p3
  rw [← hvd] at d3
  have d4 := congrArg (fun z => a * z) d3
  simp only [mul_add] at d4
  rw [add_div]
  nlinarith [p3, q3, m0, m1, d4]

noncomputable def blocksV (VF : F.σ → ℝ) (a : ℝ) (l : List (RBlock F)) : ℝ := (l.map (blockV VF a)).sum

theorem blocks_step (hF : PassiveFrom F PF VF f) {a : ℝ} (h0 : 0 ≤ a) (h1 : a < 1) (i0 i1 : ℝ) (l : List (RBlock F)) (h : ∀ b ∈ l, BlockGood PF b)
    (o0 o1 v : ℝ) :
    (∀ b ∈ (blocksTick a i0 i1 l o0 o1 v).1, BlockGood PF b) ∧ (blocksTick a i0 i1 l o0 o1 v).1.length = l.length ∧
    (1 - a) * ((blocksTick a i0 i1 l o0 o1 v).2.1 ^ 2 + (blocksTick a i0 i1 l o0 o1 v).2.2.1 ^ 2) + blocksV VF a (blocksTick a i0 i1 l o0 o1 v).1
        + a * (blocksTick a i0 i1 l o0 o1 v).2.2.2 ^ 2
      ≤ (1 - a) * (o0 ^ 2 + o1 ^ 2) + blocksV VF a l + a * v ^ 2 + l.length * ((i0 ^ 2 + i1 ^ 2) / (1 - a)) := by
  induction l generalizing o0 o1 v with
  | nil => exact ⟨h, rfl, by simp [blocksTick]⟩
  | cons b l ih =>
    have hb := block_step hF h0 h1 b (h b List.mem_cons_self) v i0 i1
    have ht := ih (fun c hc => h c (List.mem_cons_of_mem _ hc)) (b.tick a v i0 i1).2.1 (b.tick a v i0 i1).2.2 (b.tick a v i0 i1).2.2
    refine ⟨?_, ?_, ?_⟩
    · intro c hc
      rcases List.mem_cons.1 hc with rfl | hc
      · exact hb.1
      · exact ht.1 c hc
    · show (blocksTick a i0 i1 l _ _ _).1.length + 1 = _
      rw [ht.2.1]; rfl
    · have e : blocksV VF a (blocksTick a i0 i1 (b :: l) o0 o1 v).1 = blockV VF a (b.tick a v i0 i1).1
          + blocksV VF a (blocksTick a i0 i1 l (b.tick a v i0 i1).2.1 (b.tick a v i0 i1).2.2 (b.tick a v i0 i1).2.2).1 := by
        show (List.map (blockV VF a) ((b.tick a v i0 i1).1 :: (blocksTick a i0 i1 l (b.tick a v i0 i1).2.1 (b.tick a v i0 i1).2.2 (b.tick a v i0 i1).2.2).1)).sum = _
        rw [List.map_cons, List.sum_cons]; rfl
      have e2 : blocksV VF a (b :: l) = blockV VF a b + blocksV VF a l := by simp [blocksV]
      rw [e, e2]
      show (1 - a) * ((blocksTick a i0 i1 l (b.tick a v i0 i1).2.1 (b.tick a v i0 i1).2.2 (b.tick a v i0 i1).2.2).2.1 ^ 2
        + (blocksTick a i0 i1 l (b.tick a v i0 i1).2.1 (b.tick a v i0 i1).2.2 (b.tick a v i0 i1).2.2).2.2.1 ^ 2) + _
        + a * (blocksTick a i0 i1 l (b.tick a v i0 i1).2.1 (b.tick a v i0 i1).2.2 (b.tick a v i0 i1).2.2).2.2.2 ^ 2 ≤ _
      have hp : 0 ≤ (1 - a) * (o0 ^ 2 + o1 ^ 2) := by have : 0 < 1 - a := by linarith
                                                      positivity
      have e3 : (((b :: l).length : ℕ) : ℝ) = (l.length : ℝ) + 1 := by simp
      rw [e3, add_mul, one_mul]
      linarith [hb.2, ht.2.2]

/-- The invariant of a reverb: eight blocks with diffuser coefficients below one. -/
def RevGood (PF : F.σ → Prop) (a : ℝ) (s : RevSt F) : Prop :=
  (∀ t ∈ s.preL, SchGood t) ∧ (∀ t ∈ s.preR, SchGood t) ∧ (∀ b ∈ s.block, BlockGood PF b) ∧ s.block.length = 8 ∧ s.a = a

/-- Stored energy of the reverb, counting what has entered but not yet reached the loop. -/
noncomputable def stored (VF : F.σ → ℝ) (a : ℝ) (s : RevSt F) : ℝ :=
  blocksV VF a s.block + a * s.feedback ^ 2 + 8 / (1 - a) * (chainV s.preL + chainV s.preR)

theorem rev_step (hF : PassiveFrom F PF VF f) {a : ℝ} (h0 : 0 ≤ a) (h1 : a < 1) (s : RevSt F) (h : RevGood PF a s) (x : Frame ℝ 2) :
    RevGood PF a (s.tick x).1 ∧
    (1 - a) * ((s.tick x).2 0 ^ 2 + (s.tick x).2 1 ^ 2) + stored VF a (s.tick x).1 ≤ stored VF a s + 2 / (1 - a) * (x 0 ^ 2 + x 1 ^ 2) := by
  obtain ⟨g1, g2, g3, g4, rfl⟩ := h
  have c0 := chain_step s.preL g1 (x 0 * 0.5)
  have c1 := chain_step s.preR g2 (x 1 * 0.5)
  obtain ⟨i0, hi0⟩ : ∃ i0, i0 = (chainTick s.preL (x 0 * 0.5)).2 := ⟨_, rfl⟩
  obtain ⟨i1, hi1⟩ : ∃ i1, i1 = (chainTick s.preR (x 1 * 0.5)).2 := ⟨_, rfl⟩
  have hb := blocks_step hF h0 h1 i0 i1 s.block g3 0 0 s.feedback
  have et : s.tick x = (⟨(chainTick s.preL (x 0 * 0.5)).1, (chainTick s.preR (x 1 * 0.5)).1, (blocksTick s.a i0 i1 s.block 0 0 s.feedback).1,
      (blocksTick s.a i0 i1 s.block 0 0 s.feedback).2.2.2, s.a⟩,
      ![(blocksTick s.a i0 i1 s.block 0 0 s.feedback).2.1, (blocksTick s.a i0 i1 s.block 0 0 s.feedback).2.2.1]) := by
    rw [hi0, hi1]; rfl
  rw [et]
  refine ⟨⟨c0.1, c1.1, hb.1, by rw [← g4]; exact hb.2.1, rfl⟩, ?_⟩
  unfold stored
  simp only [Matrix.cons_val_zero, Matrix.cons_val_one]
  have hb3 := hb.2.2
  rw [g4] at hb3
  rw [← hi0] at c0
  rw [← hi1] at c1
  have h2 : 0 < 1 - s.a := by linarith
  have e : (8 : ℝ) / (1 - s.a) * (chainV (chainTick s.preL (x 0 * 0.5)).1 + chainV (chainTick s.preR (x 1 * 0.5)).1)
      = 8 / (1 - s.a) * (chainV s.preL + chainV s.preR) + 2 / (1 - s.a) * (x 0 ^ 2 + x 1 ^ 2) - 8 / (1 - s.a) * (i0 ^ 2 + i1 ^ 2) := by
    have e0 : chainV (chainTick s.preL (x 0 * 0.5)).1 = (x 0 * 0.5) ^ 2 + chainV s.preL - i0 ^ 2 := by linarith [c0.2]
    have e1 : chainV (chainTick s.preR (x 1 * 0.5)).1 = (x 1 * 0.5) ^ 2 + chainV s.preR - i1 ^ 2 := by linarith [c1.2]
    rw [e0, e1]; ring
  rw [e]
  have e2 : ((8 : ℕ) : ℝ) * ((i0 ^ 2 + i1 ^ 2) / (1 - s.a)) = 8 / (1 - s.a) * (i0 ^ 2 + i1 ^ 2) := by push_cast; ring
  rw [e2] at hb3
  simp only [ne_eq, OfNat.ofNat_ne_zero, not_false_eq_true, zero_pow, add_zero, mul_zero, zero_add] at hb3
  linarith

theorem rev_st (hF : PassiveFrom F PF VF f) {a : ℝ} (h0 : 0 ≤ a) (h1 : a < 1) (s : RevSt F) (h : RevGood PF a s) (w : Nat → Frame ℝ 2) :
    ∀ k, RevGood PF a ((reverb F).ticks.st s w k)
  | 0 => h
  | k + 1 => (rev_step hF h0 h1 _ (rev_st hF h0 h1 s h w k) (w k)).1

theorem stored_nonneg (hF : PassiveFrom F PF VF f) {a : ℝ} (h0 : 0 ≤ a) (h1 : a < 1) (s : RevSt F) (h : RevGood PF a s) : 0 ≤ stored VF a s := by
  obtain ⟨g1, g2, g3, g4, _⟩ := h
  have h2 : 0 < 1 - a := by linarith
  have hb : 0 ≤ blocksV VF a s.block := List.sum_nonneg (fun v hv => by
    obtain ⟨b, hb, rfl⟩ := List.mem_map.1 hv
    obtain ⟨k1, k2, k3, k4, _⟩ := g3 b hb
    have := chainV_nonneg _ k1
    have := chainV_nonneg _ k2
    have := hF.nonneg _ k3
    have := hF.nonneg _ k4
    have hd : 0 ≤ delayEnergy (b.delay.buf.length - 1) b.delay := Finset.sum_nonneg fun j _ => sq_nonneg _
    unfold blockV
    have := mul_nonneg h0 hd
    linarith)
  have := chainV_nonneg _ g1
  have := chainV_nonneg _ g2
  unfold stored
  positivity

/-- Balance over any number of samples. -/
theorem rev_total (hF : PassiveFrom F PF VF f) {a : ℝ} (h0 : 0 ≤ a) (h1 : a < 1) (s : RevSt F) (h : RevGood PF a s) (w : Nat → Frame ℝ 2) (n : Nat) :
    (1 - a) * ∑ k ∈ Finset.range n, ((reverb F).stream s w k 0 ^ 2 + (reverb F).stream s w k 1 ^ 2) + stored VF a ((reverb F).ticks.st s w n)
      ≤ stored VF a s + 2 / (1 - a) * ∑ k ∈ Finset.range n, (w k 0 ^ 2 + w k 1 ^ 2) := by
  induction n with
  | zero => simp; exact le_refl _
  | succ n ih =>
    have hs := (rev_step hF h0 h1 _ (rev_st hF h0 h1 s h w n) (w n)).2
    rw [Finset.sum_range_succ, Finset.sum_range_succ, mul_add, mul_add]
    have e1 : (reverb F).stream s w n = (RevSt.tick ((reverb F).ticks.st s w n) (w n)).2 := rfl
    have e2 : (reverb F).ticks.st s w (n + 1) = (RevSt.tick ((reverb F).ticks.st s w n) (w n)).1 := rfl
    rw [e1, e2]
    linarith

/-! ## The reverb made by `new` -/

theorem sch_new_good {c : ℝ} (h0 : 0 ≤ c) (h1 : c < 1) (d : Nat) (hd : d + 1 < 2 ^ 64) : SchGood (Sch.new c d) := by
  refine ⟨by simp [Sch.new, Line.Valid, delaySetup], ?_, ?_, ?_⟩
  · show 1 ≤ (delaySetup (0 : ℝ) d).buf.length; simp [delaySetup]
  · show (delaySetup (0 : ℝ) d).buf.length < 2 ^ 64; simpa [delaySetup] using hd
  · show |c| < 1; rw [abs_of_nonneg h0]; exact h1

theorem delayEnergy_setup (d n : Nat) : delayEnergy n (delaySetup (0 : ℝ) d) = 0 := by
  refine Finset.sum_eq_zero (fun j _ => ?_)
  have e : (delaySetup (0 : ℝ) d) = Line.reset 0 (delaySetup (0 : ℝ) d) := by simp [Line.reset, delaySetup]
  rw [e, Line.ago_reset]; norm_num

theorem sch_new_V (c : ℝ) (d : Nat) : schV (Sch.new c d) = 0 := by
  show (1 - c ^ 2) * ((0 : ℝ) ^ 2 + delayEnergy _ (delaySetup (0 : ℝ) d)) = 0
  rw [delayEnergy_setup]; norm_num

theorem coeff_range {diffusion : ℝ} (h0 : 0 ≤ diffusion) (h1 : diffusion ≤ 1) : 0 ≤ coeffOf diffusion ∧ coeffOf diffusion < 1 := by
  unfold coeffOf; constructor <;> norm_num <;> linarith

/-- **C76.** The loop gain is strictly between zero and one for every positive reverberation time, and grows with the time. -/
theorem C76_gain {time : ℝ} (h : 0 < time) : 0 < gainOf time ∧ gainOf time < 1 := by
  have h10 : (10 : ℝ) ^ ((-60 : ℝ) / 20) = 1 / 1000 := by
    rw [show ((-60 : ℝ) / 20) = ((-3 : ℤ) : ℝ) by norm_num, Real.rpow_intCast]; norm_num
  unfold gainOf
  rw [h10]
  exact ⟨Real.rpow_pos_of_pos (by norm_num) _, Real.rpow_lt_one (by norm_num) (by norm_num) (div_pos (by norm_num) h)⟩

theorem delays_lt : ∀ n, ldelays.getD n 0 < 2000 ∧ rdelays.getD n 0 < 2000 ∧ loopDelays.getD n 0 < 2000 := by
  intro n
  by_cases h : n < 32
  · have : ∀ n, n < 32 → ldelays.getD n 0 < 2000 ∧ rdelays.getD n 0 < 2000 ∧ loopDelays.getD n 0 < 2000 := by decide
    exact this n h
  · have e1 : ldelays.getD n 0 = 0 := by rw [List.getD_eq_getElem?_getD, List.getElem?_eq_none (by simp [ldelays]; omega)]; rfl
    have e2 : rdelays.getD n 0 = 0 := by rw [List.getD_eq_getElem?_getD, List.getElem?_eq_none (by simp [rdelays]; omega)]; rfl
    have e3 : loopDelays.getD n 0 = 0 := by rw [List.getD_eq_getElem?_getD, List.getElem?_eq_none (by simp [loopDelays]; omega)]; rfl
    rw [e1, e2, e3]; omega

theorem new_good (hF : PassiveFrom F PF VF f) {time diffusion : ℝ} (h0 : 0 ≤ diffusion) (h1 : diffusion ≤ 1) :
    RevGood PF (gainOf time) (RevSt.new F time diffusion f) := by
  obtain ⟨c0, c1⟩ := coeff_range h0 h1
  refine ⟨?_, ?_, ?_, by simp [RevSt.new], rfl⟩
  · intro t ht
    simp only [RevSt.new, List.mem_cons, List.not_mem_nil, or_false] at ht
    rcases ht with rfl | rfl <;> exact sch_new_good c0 c1 _ (by norm_num)
  · intro t ht
    simp only [RevSt.new, List.mem_cons, List.not_mem_nil, or_false] at ht
    rcases ht with rfl | rfl <;> exact sch_new_good c0 c1 _ (by norm_num)
  · intro b hb
    obtain ⟨i, -, rfl⟩ := List.mem_map.1 hb
    refine ⟨?_, ?_, hF.init, hF.init, by simp [Line.Valid, delaySetup], by simp [delaySetup], ?_⟩
    · intro t ht
      obtain ⟨j, -, rfl⟩ := List.mem_map.1 ht
      have := (delays_lt (i + j * 8)).1
      exact sch_new_good c0 c1 _ (by omega)
    · intro t ht
      obtain ⟨j, -, rfl⟩ := List.mem_map.1 ht
      have := (delays_lt (i + j * 8)).2.1
      exact sch_new_good c0 c1 _ (by omega)
    · have := (delays_lt (7 - i)).2.2
      show (delaySetup (0 : ℝ) (loopDelays.getD (7 - i) 0)).buf.length < 2 ^ 64
      rw [delaySetup, List.length_replicate]; omega

theorem new_stored (hF : PassiveFrom F PF VF f) (time diffusion : ℝ) (a : ℝ) : stored VF a (RevSt.new F time diffusion f) = 0 := by
  have hc : ∀ (l : List Sch), (∀ t ∈ l, schV t = 0) → chainV l = 0 := by
    intro l h
    refine List.sum_eq_zero (fun v hv => ?_)
    obtain ⟨t, ht, rfl⟩ := List.mem_map.1 hv
    exact h t ht
  have hb : blocksV VF a (RevSt.new F time diffusion f).block = 0 := by
    refine List.sum_eq_zero (fun v hv => ?_)
    obtain ⟨b, hb, rfl⟩ := List.mem_map.1 hv
    obtain ⟨i, -, rfl⟩ := List.mem_map.1 hb
    unfold blockV
    simp only
    rw [hc, hc, hF.rest, delayEnergy_setup]
    · ring
    · intro t ht; obtain ⟨j, -, rfl⟩ := List.mem_map.1 ht; exact sch_new_V _ _
    · intro t ht; obtain ⟨j, -, rfl⟩ := List.mem_map.1 ht; exact sch_new_V _ _
  unfold stored
  rw [hb, hc, hc]
  · show (0 : ℝ) + a * 0 ^ 2 + 8 / (1 - a) * (0 + 0) = 0
    ring
  · intro t ht
    simp only [RevSt.new, List.mem_cons, List.not_mem_nil, or_false] at ht
    rcases ht with rfl | rfl <;> exact sch_new_V _ _
  · intro t ht
    simp only [RevSt.new, List.mem_cons, List.not_mem_nil, or_false] at ht
    rcases ht with rfl | rfl <;> exact sch_new_V _ _

/-- **C76.** Stability: for any loop filter that does not amplify, over any number of samples the energy of both outputs is at most
`2 / (1 - a)^2` times the energy of both inputs, where `a < 1` is the loop gain of the reverberation time. -/
theorem C76_stable (hF : PassiveFrom F PF VF f) {time diffusion : ℝ} (ht : 0 < time) (h0 : 0 ≤ diffusion) (h1 : diffusion ≤ 1)
    (w : Nat → Frame ℝ 2) (n : Nat) :
    ∑ k ∈ Finset.range n, ((reverb F).stream (RevSt.new F time diffusion f) w k 0 ^ 2 + (reverb F).stream (RevSt.new F time diffusion f) w k 1 ^ 2)
      ≤ 2 / (1 - gainOf time) ^ 2 * ∑ k ∈ Finset.range n, (w k 0 ^ 2 + w k 1 ^ 2) := by
  obtain ⟨a0, a1⟩ := C76_gain ht
  have hg := new_good hF (time := time) h0 h1
  have h := rev_total hF a0.le a1 _ hg w n
  rw [new_stored hF] at h
  have hn := stored_nonneg hF a0.le a1 _ (rev_st hF a0.le a1 _ hg w n)
  have h2 : 0 < 1 - gainOf time := by linarith
  have h3 : (1 - gainOf time) * ∑ k ∈ Finset.range n, ((reverb F).stream (RevSt.new F time diffusion f) w k 0 ^ 2 + (reverb F).stream (RevSt.new F time diffusion f) w k 1 ^ 2)
      ≤ 2 / (1 - gainOf time) * ∑ k ∈ Finset.range n, (w k 0 ^ 2 + w k 1 ^ 2) := by linarith
  rw [mul_comm, ← le_div_iff₀ h2] at h3
  refine h3.trans (le_of_eq ?_)
  field_simp

/-- **C76.** Consequently each output sample is bounded in terms of the input energy. -/
theorem C76_sample (hF : PassiveFrom F PF VF f) {time diffusion : ℝ} (ht : 0 < time) (h0 : 0 ≤ diffusion) (h1 : diffusion ≤ 1)
    (w : Nat → Frame ℝ 2) (n : Nat) :
    (reverb F).stream (RevSt.new F time diffusion f) w n 0 ^ 2 + (reverb F).stream (RevSt.new F time diffusion f) w n 1 ^ 2
      ≤ 2 / (1 - gainOf time) ^ 2 * ∑ k ∈ Finset.range (n + 1), (w k 0 ^ 2 + w k 1 ^ 2) := by
  have h := C76_stable hF ht h0 h1 w (n + 1)
  rw [Finset.sum_range_succ] at h
  have : 0 ≤ ∑ k ∈ Finset.range n, ((reverb F).stream (RevSt.new F time diffusion f) w k 0 ^ 2 + (reverb F).stream (RevSt.new F time diffusion f) w k 1 ^ 2) :=
    Finset.sum_nonneg (fun k _ => by positivity)
  linarith

/-- **C76.** After the input has ended (for any input of `m` samples followed by silence) the tail dies out: both outputs tend to zero. -/
theorem C76_dies_out (hF : PassiveFrom F PF VF f) {time diffusion : ℝ} (ht : 0 < time) (h0 : 0 ≤ diffusion) (h1 : diffusion ≤ 1)
    (w : Nat → Frame ℝ 2) (m : Nat) (hw : ∀ k, m ≤ k → w k 0 = 0 ∧ w k 1 = 0) (c : Fin 2) :
    Filter.Tendsto (fun n => (reverb F).stream (RevSt.new F time diffusion f) w n c) Filter.atTop (nhds 0) := by
  obtain ⟨y, hy⟩ : ∃ y, y = fun n => (reverb F).stream (RevSt.new F time diffusion f) w n := ⟨_, rfl⟩
  have hb : ∀ n, ∑ k ∈ Finset.range n, (y k 0 ^ 2 + y k 1 ^ 2) ≤ 2 / (1 - gainOf time) ^ 2 * ∑ k ∈ Finset.range m, (w k 0 ^ 2 + w k 1 ^ 2) := by
    intro n
    rw [hy]
    refine (C76_stable hF ht h0 h1 w n).trans ?_
    have h2 : 0 < 1 - gainOf time := by linarith [(C76_gain ht).2]
    refine mul_le_mul_of_nonneg_left ?_ (by positivity)
    by_cases hn : n ≤ m
    · exact Finset.sum_le_sum_of_subset_of_nonneg (Finset.range_mono hn) (fun k _ _ => by positivity)
    · push Not at hn
      rw [← Finset.sum_range_add_sum_Ico _ hn.le]
      have : ∑ k ∈ Finset.Ico m n, (w k 0 ^ 2 + w k 1 ^ 2) = 0 := Finset.sum_eq_zero (fun k hk => by
        obtain ⟨e0, e1⟩ := hw k (Finset.mem_Ico.1 hk).1
        rw [e0, e1]; norm_num)
      linarith
  have hs : Summable (fun k => y k 0 ^ 2 + y k 1 ^ 2) := summable_of_sum_range_le (fun k => by positivity) hb
  have hz := hs.tendsto_atTop_zero
  have hq : Filter.Tendsto (fun n => y n c ^ 2) Filter.atTop (nhds 0) := by
    refine squeeze_zero (fun n => sq_nonneg _) (fun n => ?_) hz
    match c with
    | 0 => nlinarith [sq_nonneg (y n 1)]
    | 1 => nlinarith [sq_nonneg (y n 0)]
  have hr := hq.sqrt
  rw [Real.sqrt_zero] at hr
  have : Filter.Tendsto (fun n => |y n c|) Filter.atTop (nhds 0) := by
    refine hr.congr (fun n => Real.sqrt_sq_eq_abs _)
  have h3 := (tendsto_zero_iff_abs_tendsto_zero (fun n => y n c)).2 this
  rw [hy] at h3
  exact h3

/-- **C76.** Silence in: from any state reached with any input, the stored energy never grows. -/
theorem C76_silence (hF : PassiveFrom F PF VF f) {time diffusion : ℝ} (ht : 0 < time) (h0 : 0 ≤ diffusion) (h1 : diffusion ≤ 1)
    (w : Nat → Frame ℝ 2) (m n : Nat) (hmn : m ≤ n) (hw : ∀ k, m ≤ k → w k 0 = 0 ∧ w k 1 = 0) :
    stored VF (gainOf time) ((reverb F).ticks.st (RevSt.new F time diffusion f) w n)
      ≤ stored VF (gainOf time) ((reverb F).ticks.st (RevSt.new F time diffusion f) w m) := by
  obtain ⟨a0, a1⟩ := C76_gain ht
  have hg := new_good hF (time := time) h0 h1
  induction n, hmn using Nat.le_induction with
  | base => exact le_refl _
  | succ n hn ih =>
    refine le_trans ?_ ih
    have hs := (rev_step hF a0.le a1 _ (rev_st hF a0.le a1 _ hg w n) (w n)).2
    rw [(hw n hn).1, (hw n hn).2] at hs
    have e2 : (reverb F).ticks.st (RevSt.new F time diffusion f) w (n + 1) = (RevSt.tick ((reverb F).ticks.st (RevSt.new F time diffusion f) w n) (w n)).1 := rfl
    rw [e2]
    have h2 : 0 < 1 - gainOf time := by linarith
    have : 0 ≤ (1 - gainOf time) * ((RevSt.tick ((reverb F).ticks.st (RevSt.new F time diffusion f) w n) (w n)).2 0 ^ 2
      + (RevSt.tick ((reverb F).ticks.st (RevSt.new F time diffusion f) w n) (w n)).2 1 ^ 2) := by positivity
    norm_num at hs
    linarith

end

/-! ## A loop filter -/

/-- **C76.** The one-pole lowpass with coefficient `c` in `[0, 1)` does not amplify, so it may be used as loop filter. -/
theorem C76_lowpole (c : ℝ) (h0 : 0 ≤ c) (h1 : c < 1) :
    PassiveFrom (lowpoleNode (fun x : ℝ => x) 0) (fun s : LowpoleSt ℝ => s.coeff = c) (fun s => c / (1 - c) * s.value ^ 2) (⟨0, c, c⟩ : LowpoleSt ℝ) where
  init := rfl
  rest := by show c / (1 - c) * (0 : ℝ) ^ 2 = 0; ring
  closed := by intro s x h; exact h
  nonneg := by
    intro s _
    have h2 : 0 < 1 - c := by linarith
    exact mul_nonneg (div_nonneg h0 h2.le) (sq_nonneg _)
  balance := by
    rintro (s : LowpoleSt ℝ) x (rfl : s.coeff = c)
    have h2 : 0 < 1 - s.coeff := by linarith
    show ((1 - s.coeff) * x 0 + s.coeff * s.value) ^ 2 + s.coeff / (1 - s.coeff) * ((1 - s.coeff) * x 0 + s.coeff * s.value) ^ 2
      ≤ x 0 ^ 2 + s.coeff / (1 - s.coeff) * s.value ^ 2
    have e : x 0 ^ 2 + s.coeff / (1 - s.coeff) * s.value ^ 2
        - (((1 - s.coeff) * x 0 + s.coeff * s.value) ^ 2 + s.coeff / (1 - s.coeff) * ((1 - s.coeff) * x 0 + s.coeff * s.value) ^ 2)
        = s.coeff * (x 0 - s.value) ^ 2 := by field_simp; ring
    have : 0 ≤ s.coeff * (x 0 - s.value) ^ 2 := mul_nonneg h0 (sq_nonneg _)
    linarith

/-- **C76.** Having no loop filter at all is allowed too. -/
theorem C76_pass : PassiveFrom (mapNode (fun x : Frame ℝ 1 => x)) (fun _ => True) (fun _ => 0) () where
  init := trivial
  rest := rfl
  closed := fun _ _ _ => trivial
  nonneg := fun _ _ => le_refl _
  balance := fun _ x _ => by show x 0 ^ 2 + 0 ≤ x 0 ^ 2 + 0; exact le_refl _

/-- Non-vacuity: two seconds of reverberation with a lowpass in the loop. -/
example (w : Nat → Frame ℝ 2) (n : Nat) := C76_stable (C76_lowpole (1 / 2) (by norm_num) (by norm_num)) (time := 2) (diffusion := 1 / 2)
  (by norm_num) (by norm_num) (by norm_num) w n

/-! ## Reset -/

section
variable {F : Node ℝ 1 1} {PF : F.σ → Prop} {VF : F.σ → ℝ} {f : F.σ}

theorem sch_reset_tick (s : Sch) (h : SchGood s) (x : ℝ) : Sch.reset (Sch.tick s x).1 = Sch.reset s := by
  obtain ⟨t, z, e⟩ := s
  have hd := (delay_step t h.1 h.2.1 h.2.2.1 (x - z * e)).2.1
  have e1 : Sch.reset (Sch.tick (⟨t, z, e⟩ : Sch) x).1 = (⟨Line.reset 0 (lineTick t (x - z * e)).1, z, 0⟩ : Sch) := rfl
  have e2 : Sch.reset (⟨t, z, e⟩ : Sch) = (⟨Line.reset 0 (t : Line ℝ), z, 0⟩ : Sch) := rfl
  have e3 : Line.reset 0 (lineTick t (x - z * e)).1 = Line.reset 0 (t : Line ℝ) := by
    unfold Line.reset; rw [hd]
  rw [e1, e2, e3]

theorem chain_reset_tick (l : List Sch) (h : ∀ s ∈ l, SchGood s) (x : ℝ) : (chainTick l x).1.map Sch.reset = l.map Sch.reset := by
  induction l generalizing x with
  | nil => rfl
  | cons s l ih =>
    show Sch.reset (Sch.tick s x).1 :: (chainTick l ((Sch.tick s x).2)).1.map Sch.reset = _
    rw [sch_reset_tick s (h s List.mem_cons_self), ih (fun t ht => h t (List.mem_cons_of_mem _ ht))]
    rfl

theorem block_reset_tick (hf : ∀ u, PF u → F.reset u = f) (hc : ∀ u x, PF u → PF (F.tick u x).1) (a : ℝ) (b : RBlock F) (h : BlockGood PF b) (v i0 i1 : ℝ) :
    (b.tick a v i0 i1).1.reset = b.reset := by
  obtain ⟨g1, g2, g3, g4, g5, g6, g7⟩ := h
  obtain ⟨l0, l1, f0, f1, d⟩ := b
  have hd := (delay_step d g5 g6 g7 v).2.1
  unfold RBlock.tick RBlock.reset halfTick
  simp only
  rw [chain_reset_tick l0 g1, chain_reset_tick l1 g2, hf _ (hc _ _ g3), hf _ (hc _ _ g4), hf _ g3, hf _ g4]
  have e : Line.reset 0 (lineTick d v).1 = Line.reset 0 d := by
    unfold Line.reset; rw [hd]
  rw [e]

theorem blocks_reset_tick (hf : ∀ u, PF u → F.reset u = f) (hc : ∀ u x, PF u → PF (F.tick u x).1) (a i0 i1 : ℝ) (l : List (RBlock F))
    (h : ∀ b ∈ l, BlockGood PF b) (o0 o1 v : ℝ) : (blocksTick a i0 i1 l o0 o1 v).1.map RBlock.reset = l.map RBlock.reset := by
  induction l generalizing o0 o1 v with
  | nil => rfl
  | cons b l ih =>
    show (b.tick a v i0 i1).1.reset :: (blocksTick a i0 i1 l _ _ _).1.map RBlock.reset = _
    rw [block_reset_tick hf hc a b (h b List.mem_cons_self), ih (fun t ht => h t (List.mem_cons_of_mem _ ht))]
    rfl

theorem sch_reset_good (s : Sch) (h : SchGood s) : SchGood (Sch.reset s) := by
  obtain ⟨h1, h2, h3, h4⟩ := h
  refine ⟨h1.reset 0, ?_, ?_, h4⟩
  · show 1 ≤ (Line.reset 0 (s.x : Line ℝ)).buf.length; simpa [Line.reset] using h2
  · show (Line.reset 0 (s.x : Line ℝ)).buf.length < 2 ^ 64; simpa [Line.reset] using h3

theorem block_reset_good (hF : PassiveFrom F PF VF f) (hf : ∀ u, PF u → F.reset u = f) (b : RBlock F) (h : BlockGood PF b) : BlockGood PF b.reset := by
  obtain ⟨g1, g2, g3, g4, g5, g6, g7⟩ := h
  refine ⟨?_, ?_, ?_, ?_, Line.Valid.reset g5 0, ?_, ?_⟩
  · intro t ht; obtain ⟨s, hs, rfl⟩ := List.mem_map.1 ht; exact sch_reset_good s (g1 s hs)
  · intro t ht; obtain ⟨s, hs, rfl⟩ := List.mem_map.1 ht; exact sch_reset_good s (g2 s hs)
  · show PF (F.reset b.filter0); rw [hf _ g3]; exact hF.init
  · show PF (F.reset b.filter1); rw [hf _ g4]; exact hF.init
  · show 1 ≤ (Line.reset 0 b.delay).buf.length; simpa [Line.reset] using g6
  · show (Line.reset 0 b.delay).buf.length < 2 ^ 64; simpa [Line.reset] using g7

theorem delaySetup_reset (d : Nat) : Line.reset 0 (delaySetup (0 : ℝ) d) = delaySetup 0 d := by simp [Line.reset, delaySetup]

theorem sch_new_reset (c : ℝ) (d : Nat) : Sch.reset (Sch.new c d) = Sch.new c d := by
  show (⟨Line.reset 0 (delaySetup (0 : ℝ) d), c, 0⟩ : Sch) = _
  rw [delaySetup_reset]; rfl

theorem new_block_reset (hF : PassiveFrom F PF VF f) (hf : ∀ u, PF u → F.reset u = f) (time diffusion : ℝ) :
    (RevSt.new F time diffusion f).block.map RBlock.reset = (RevSt.new F time diffusion f).block := by
  unfold RevSt.new
  simp only [List.map_map]
  refine List.map_congr_left (fun i _ => ?_)
  simp only [Function.comp, RBlock.reset, List.map_map, hf _ hF.init]
  congr 1
  · exact List.map_congr_left (fun j _ => sch_new_reset _ _)
  · exact List.map_congr_left (fun j _ => sch_new_reset _ _)
  · exact delaySetup_reset _

/-- **C76, partial.** Resetting, at any time, returns everything inside the loop to the new state. Missing: the input diffusers (`C76_violation_reset`). -/
theorem C76_reset_partial (hF : PassiveFrom F PF VF f) (hf : ∀ u, PF u → F.reset u = f) {time diffusion : ℝ} (ht : 0 < time) (h0 : 0 ≤ diffusion) (h1 : diffusion ≤ 1)
    (s : (reverb F).σ) (hs : Reached (reverb F) (RevSt.new F time diffusion f) s) :
    RevSt.reset s = { RevSt.new F time diffusion f with preL := RevSt.preL s, preR := RevSt.preR s } := by
  obtain ⟨a0, a1⟩ := C76_gain ht
  have key : RevGood PF (gainOf time) s ∧ (RevSt.block s).map RBlock.reset = (RevSt.new F time diffusion f).block := by
    induction hs with
    | init => exact ⟨new_good hF h0 h1, new_block_reset hF hf time diffusion⟩
    | @tick s x _ ih =>
      refine ⟨(rev_step hF a0.le a1 s ih.1 x).1, ?_⟩
      refine Eq.trans ?_ ih.2
      exact blocks_reset_tick hf hF.closed _ _ _ _ ih.1.2.2.1 _ _ _
    | @reset s _ ih =>
      obtain ⟨⟨g1, g2, g3, g4, g5⟩, g6⟩ := ih
      have e : ((reverb F).reset s : RevSt F).block = (RevSt.new F time diffusion f).block := g6
      refine ⟨⟨g1, g2, ?_, ?_, g5⟩, ?_⟩
      · intro b hb
        obtain ⟨c, hc, rfl⟩ := List.mem_map.1 hb
        exact block_reset_good hF hf c (g3 c hc)
      · rw [e]; simp [RevSt.new]
      · rw [e]; exact new_block_reset hF hf time diffusion
  obtain ⟨p, q, b, v, a⟩ := (s : RevSt F)
  have ha : a = gainOf time := key.1.2.2.2.2
  have hb : b.map RBlock.reset = (RevSt.new F time diffusion f).block := key.2
  unfold RevSt.reset
  simp only
  rw [hb, ha]
  rfl

end

/-! ## What is left after a reset -/

theorem sch_line (c : ℝ) (d : Nat) (u : Nat → Frame ℝ 1) (k : Nat) :
    (schNode.ticks.st (Sch.new c d) u k : Sch).eta = c ∧
    (schNode.ticks.st (Sch.new c d) u k : Sch).x = (delayNode (0 : ℝ)).ticks.st (delaySetup 0 d) (fun j _ => u j 0 - c * (schNode.ticks.st (Sch.new c d) u j : Sch).z) k := by
  induction k with
  | zero => exact ⟨rfl, rfl⟩
  | succ k ih =>
    obtain ⟨s, hs⟩ : ∃ s : Sch, s = schNode.ticks.st (Sch.new c d) u k := ⟨_, rfl⟩
    rw [← hs] at ih
    have e : (schNode.ticks.st (Sch.new c d) u (k + 1) : Sch) = ⟨((delayNode (0 : ℝ)).tick s.x (fun _ => u k 0 - s.eta * s.z)).1, s.eta,
        ((delayNode (0 : ℝ)).tick s.x (fun _ => u k 0 - s.eta * s.z)).2 0⟩ := by rw [hs]; rfl
    rw [e]
    refine ⟨ih.1, ?_⟩
    show ((delayNode (0 : ℝ)).tick s.x (fun _ => u k 0 - s.eta * s.z)).1 = ((delayNode (0 : ℝ)).tick ((delayNode (0 : ℝ)).ticks.st (delaySetup 0 d) _ k)
      (fun _ => u k 0 - c * (schNode.ticks.st (Sch.new c d) u k : Sch).z)).1
    rw [← hs, ih.1, ih.2]

/-- What a diffuser holds at its output: nothing until its delay has passed, then the delayed signal. -/
theorem sch_z (c : ℝ) (d : Nat) (hd : d + 1 < 2 ^ 64) (u : Nat → Frame ℝ 1) (k : Nat) :
    (schNode.ticks.st (Sch.new c d) u (k + 1) : Sch).z
      = delayed 0 d (fun j => u j 0 - c * (schNode.ticks.st (Sch.new c d) u j : Sch).z) k := by
  obtain ⟨h1, h2⟩ := sch_line c d u k
  rw [← C35_delay 0 d hd (fun j _ => u j 0 - c * (schNode.ticks.st (Sch.new c d) u j : Sch).z) k]
  obtain ⟨s, hs⟩ : ∃ s : Sch, s = schNode.ticks.st (Sch.new c d) u k := ⟨_, rfl⟩
  have e : (schNode.ticks.st (Sch.new c d) u (k + 1) : Sch).z = ((delayNode (0 : ℝ)).tick s.x (fun _ => u k 0 - s.eta * s.z)).2 0 := by rw [hs]; rfl
  rw [e]
  show _ = ((delayNode (0 : ℝ)).tick ((delayNode (0 : ℝ)).ticks.st (delaySetup 0 d) _ k) (fun _ => u k 0 - c * (schNode.ticks.st (Sch.new c d) u k : Sch).z)).2 0
  rw [← hs] at h1 h2 ⊢
  rw [h1, h2]

theorem sch_z_early (c : ℝ) (d : Nat) (hd : d + 1 < 2 ^ 64) (u : Nat → Frame ℝ 1) (k : Nat) (hk : k ≤ d) :
    (schNode.ticks.st (Sch.new c d) u k : Sch).z = 0 := by
  cases k with
  | zero => rfl
  | succ k => rw [sch_z c d hd, delayed, if_neg (by omega)]

theorem sch_z_first (c : ℝ) (d : Nat) (hd : d + 1 < 2 ^ 64) (u : Nat → Frame ℝ 1) :
    (schNode.ticks.st (Sch.new c d) u (d + 1) : Sch).z = u 0 0 := by
  rw [sch_z c d hd, delayed, if_pos (le_refl d), Nat.sub_self]
  show u 0 0 - c * (0 : ℝ) = _
  ring

/-- Two diffusers in a row run independently of the rest. -/
theorem chain_two (p q : Sch) (F : Node ℝ 1 1) (s0 : RevSt F) (h : s0.preL = [p, q]) (w : Nat → Frame ℝ 2) (k : Nat) :
    ((reverb F).ticks.st s0 w k : RevSt F).preL = [schNode.ticks.st p (fun j _ => w j 0 * 0.5) k,
      schNode.ticks.st q (fun j _ => schNode.ticks.out p (fun j _ => w j 0 * 0.5) j 0) k] := by
  induction k with
  | zero => exact h
  | succ k ih =>
    have e : ((reverb F).ticks.st s0 w (k + 1) : RevSt F).preL = (chainTick ((reverb F).ticks.st s0 w k : RevSt F).preL (w k 0 * 0.5)).1 := rfl
    rw [e, ih]
    rfl

theorem right_silent (F : Node ℝ 1 1) (s0 : RevSt F) (h : ∀ t ∈ s0.preR, SchGood t) (hV : chainV s0.preR = 0) (w : Nat → Frame ℝ 2) (hw : ∀ k, w k 1 = 0) (k : Nat) :
    (∀ t ∈ ((reverb F).ticks.st s0 w k : RevSt F).preR, SchGood t) ∧ chainV ((reverb F).ticks.st s0 w k : RevSt F).preR = 0 := by
  induction k with
  | zero => exact ⟨h, hV⟩
  | succ k ih =>
    have e : ((reverb F).ticks.st s0 w (k + 1) : RevSt F).preR = (chainTick ((reverb F).ticks.st s0 w k : RevSt F).preR (w k 1 * 0.5)).1 := rfl
    have hs := chain_step _ ih.1 (w k 1 * 0.5)
    rw [e]
    refine ⟨hs.1, ?_⟩
    have h1 := hs.2
    rw [ih.2, hw k] at h1
    have h2 := chainV_nonneg _ hs.1
    rw [hw k] at h2 ⊢
    nlinarith [sq_nonneg (chainTick ((reverb F).ticks.st s0 w k : RevSt F).preR (0 * 0.5)).2]

theorem sch_fresh_out (c : ℝ) (d : Nat) (x : ℝ) : (Sch.tick (Sch.new c d) x).2 = c * x := by
  show c * (x - c * 0) + 0 = c * x
  ring

theorem chain_fresh_pos (c : ℝ) (hc : 0 < c) (ds : List Nat) (x : ℝ) :
    (0 < x → 0 < (chainTick (ds.map (Sch.new c)) x).2) ∧ (0 ≤ x → 0 ≤ (chainTick (ds.map (Sch.new c)) x).2) := by
  induction ds generalizing x with
  | nil => exact ⟨id, id⟩
  | cons d ds ih =>
    have e : (chainTick ((d :: ds).map (Sch.new c)) x).2 = (chainTick (ds.map (Sch.new c)) (c * x)).2 := by
      show (chainTick (ds.map (Sch.new c)) (Sch.tick (Sch.new c d) x).2).2 = _
      rw [sch_fresh_out]
    rw [e]
    exact ⟨fun h => (ih _).1 (mul_pos hc h), fun h => (ih _).2 (mul_nonneg hc.le h)⟩

/-- No loop filter. -/
noncomputable abbrev thru : Node ℝ 1 1 := mapNode (fun x : Frame ℝ 1 => x)

def FreshBlock (c : ℝ) (b : RBlock thru) : Prop :=
  (∃ ds : List Nat, b.allpass0 = ds.map (Sch.new c)) ∧ (∃ ds : List Nat, b.allpass1 = ds.map (Sch.new c)) ∧ ∃ d, d + 1 < 2 ^ 64 ∧ b.delay = delaySetup 0 d

theorem line_fresh (d : Nat) (hd : d + 1 < 2 ^ 64) (v : ℝ) (hv : 0 ≤ v) : 0 ≤ (lineTick (delaySetup 0 d) v).2 := by
  have h := C35_delay (0 : ℝ) d hd (fun _ _ => v) 0
  have e : (lineTick (delaySetup 0 d) v).2 = delayed 0 d (fun _ => v) 0 := h
  rw [e]; unfold delayed
  split
  · exact hv
  · exact le_refl _

theorem block_fresh_pos (a c : ℝ) (ha : 0 < a) (hc : 0 < c) (b : RBlock thru) (hb : FreshBlock c b) (v i0 : ℝ) (hv : 0 ≤ v) (hi : 0 < i0) :
    0 < (b.tick a v i0 0).2.1 ∧ 0 ≤ (b.tick a v i0 0).2.2 := by
  obtain ⟨⟨l0, h0⟩, ⟨l1, h1⟩, d, hd, h2⟩ := hb
  have hl := line_fresh d hd v hv
  rw [← h2] at hl
  have p0 : 0 < a * (lineTick b.delay v).2 + i0 := by have := mul_nonneg ha.le hl; linarith
  have e0 : (b.tick a v i0 0).2.1 = (chainTick b.allpass0 (a * (lineTick b.delay v).2 + i0)).2 := rfl
  have e1 : (b.tick a v i0 0).2.2 = (chainTick b.allpass1 (a * (chainTick b.allpass0 (a * (lineTick b.delay v).2 + i0)).2 + 0)).2 := rfl
  rw [h0] at e0 e1
  rw [h1] at e1
  have q0 := (chain_fresh_pos c hc l0 _).1 p0
  rw [e0, e1]
  refine ⟨q0, (chain_fresh_pos c hc l1 _).2 ?_⟩
  have := mul_pos ha q0
  linarith

theorem blocks_fresh_pos (a c : ℝ) (ha : 0 < a) (hc : 0 < c) (i0 : ℝ) (hi : 0 < i0) (l : List (RBlock thru)) (hl : ∀ b ∈ l, FreshBlock c b)
    (o0 o1 v : ℝ) (ho : l ≠ [] ∨ 0 < o0) (hv : 0 ≤ v) : 0 < (blocksTick a i0 0 l o0 o1 v).2.1 := by
  induction l generalizing o0 o1 v with
  | nil => exact ho.resolve_left (fun h => h rfl)
  | cons b l ih =>
    obtain ⟨h1, h2⟩ := block_fresh_pos a c ha hc b (hl b List.mem_cons_self) v i0 hv hi
    exact ih (fun t ht => hl t (List.mem_cons_of_mem _ ht)) _ _ _ (Or.inr h1) h2

theorem rev_first (F : Node ℝ 1 1) (s : RevSt F) (x : Nat → Frame ℝ 2) : (reverb F).stream s x 0 0
    = (blocksTick s.a (chainTick s.preL (x 0 0 * 0.5)).2 (chainTick s.preR (x 0 1 * 0.5)).2 s.block 0 0 s.feedback).2.1 := rfl

/-- **C76, negative.** A reset reverb is not a new one: after an impulse and 244 silent samples, a reset does not prevent the rest of the impulse from
coming out of the input diffusers, while the new reverb is silent. -/
theorem C76_violation_reset : ¬ ResetFresh (reverb thru) (RevSt.new thru 1 0 ()) := by
  intro hR
  obtain ⟨s0, hs0⟩ : ∃ s0, s0 = RevSt.new thru 1 0 () := ⟨_, rfl⟩
  rw [← hs0] at hR
  obtain ⟨w, hw⟩ : ∃ w : Nat → Frame ℝ 2, w = fun k => ![if k = 0 then 2 else 0, 0] := ⟨_, rfl⟩
  have hw1 : ∀ k, w k 1 = 0 := by rw [hw]; intro k; rfl
  have hw0 : w 0 0 = 2 := by rw [hw]; rfl
  obtain ⟨s, hs⟩ : ∃ s : RevSt thru, s = (reverb thru).ticks.st s0 w 245 := ⟨_, rfl⟩
  have hreach : ∀ k, Reached (reverb thru) s0 ((reverb thru).ticks.st s0 w k) := by
    intro k
    induction k with
    | zero => exact Reached.init
    | succ k ih => exact Reached.tick (w k) ih
  have hrs : Reached (reverb thru) s0 (s : (reverb thru).σ) := by rw [hs]; exact hreach 245
  have heq := congrFun (congrFun (hR.tickFresh s hrs (fun _ => ![0, 0])) 0) 0
  -- the new reverb is silent
  have hnew : (reverb thru).stream s0 (fun _ => ![0, 0]) 0 0 = 0 := by
    have h := C76_sample C76_pass (time := 1) (diffusion := 0) one_pos (le_refl 0) zero_le_one (fun _ => ![0, 0]) 0
    rw [← hs0] at h
    simp at h
    have h1 := sq_nonneg ((reverb thru).stream s0 (fun _ => ![0, 0]) 0 0)
    have h2 := sq_nonneg ((reverb thru).stream s0 (fun _ => ![0, 0]) 0 1)
    exact pow_eq_zero_iff (two_ne_zero) |>.1 (le_antisymm (by linarith) h1)
  -- the reset one is not
  have hreset := C76_reset_partial C76_pass (fun _ _ => rfl) (time := 1) (diffusion := 0) one_pos (le_refl 0) zero_le_one s (by rw [← hs0]; exact hrs)
  have hc : coeffOf 0 = 1 / 2 := by unfold coeffOf; norm_num
  have hg := (C76_gain (time := 1) one_pos).1
  have hL : s.preL = [schNode.ticks.st (Sch.new (1 / 2) 244) (fun j _ => w j 0 * 0.5) 245,
      schNode.ticks.st (Sch.new (1 / 2) 366) (fun j _ => schNode.ticks.out (Sch.new (1 / 2) 244) (fun j _ => w j 0 * 0.5) j 0) 245] := by
    rw [hs]
    exact chain_two _ _ _ s0 (by rw [hs0]; show [Sch.new (coeffOf 0) 244, Sch.new (coeffOf 0) 366] = _; rw [hc]) w 245
  obtain ⟨p, hp⟩ : ∃ p : Sch, p = schNode.ticks.st (Sch.new (1 / 2) 244) (fun j _ => w j 0 * 0.5) 245 := ⟨_, rfl⟩
  obtain ⟨q, hq⟩ : ∃ q : Sch, q = schNode.ticks.st (Sch.new (1 / 2) 366) (fun j _ => schNode.ticks.out (Sch.new (1 / 2) 244) (fun j _ => w j 0 * 0.5) j 0) 245 := ⟨_, rfl⟩
  rw [← hp, ← hq] at hL
  have pz : p.z = 1 := by
    rw [hp, sch_z_first (1 / 2) 244 (by norm_num)]; simp only [hw0]; norm_num
  have pe : p.eta = 1 / 2 := by rw [hp]; exact (sch_line _ _ _ _).1
  have qz : q.z = 0 := by rw [hq]; exact sch_z_early (1 / 2) 366 (by norm_num) _ 245 (by norm_num)
  have qe : q.eta = 1 / 2 := by rw [hq]; exact (sch_line _ _ _ _).1
  have hi : (chainTick s.preL (0 * 0.5)).2 = 3 / 8 := by
    rw [hL]
    show q.eta * ((p.eta * (0 * 0.5 - p.eta * p.z) + p.z) - q.eta * q.z) + q.z = 3 / 8
    rw [pz, pe, qz, qe]; norm_num
  have hR0 : (chainTick s.preR (0 * 0.5)).2 = 0 := by
    have hgood := new_good C76_pass (time := 1) (diffusion := 0) (le_refl 0) zero_le_one
    rw [← hs0] at hgood
    have hV : chainV s0.preR = 0 := by
      rw [hs0]
      show ([Sch.new (coeffOf 0) 262, Sch.new (coeffOf 0) 348].map schV).sum = 0
      simp only [List.map_cons, List.map_nil, List.sum_cons, List.sum_nil, sch_new_V]; norm_num
    have hr := right_silent thru s0 hgood.2.1 hV w hw1 245
    rw [← hs] at hr
    have h1 := chain_step _ hr.1 (0 * 0.5)
    have h2 := chainV_nonneg _ h1.1
    have h3 := h1.2
    rw [hr.2] at h3
    have e0 : ((0 : ℝ) * 0.5) ^ 2 = 0 := by norm_num
    rw [e0] at h3
    have h4 : (chainTick s.preR (0 * 0.5)).2 ^ 2 = 0 := le_antisymm (by linarith) (sq_nonneg _)
    exact pow_eq_zero_iff two_ne_zero |>.1 h4
  have hout : (reverb thru).stream (RevSt.reset s) (fun _ => ![0, 0]) 0 0
      = (blocksTick (gainOf 1) (chainTick s.preL (0 * 0.5)).2 (chainTick s.preR (0 * 0.5)).2 s0.block 0 0 0).2.1 := by
    have hb : (RevSt.reset s).block = s0.block := by rw [hs0]; exact (congrArg RevSt.block hreset).trans rfl
    have ha : (RevSt.reset s).a = gainOf 1 := congrArg RevSt.a hreset
    rw [rev_first, hb, ha]
    rfl
  have hpos : 0 < (reverb thru).stream (RevSt.reset s) (fun _ => ![0, 0]) 0 0 := by
    rw [hout, hi, hR0]
    refine blocks_fresh_pos _ (1 / 2) hg (by norm_num) _ (by norm_num) _ ?_ _ _ _ (Or.inl ?_) (le_refl 0)
    · intro b hb
      rw [hs0] at hb
      obtain ⟨i, -, rfl⟩ := List.mem_map.1 hb
      refine ⟨⟨(List.range 4).map fun j => ldelays.getD (i + j * 8) 0 - 1, ?_⟩, ⟨(List.range 4).map fun j => rdelays.getD (i + j * 8) 0 - 1, ?_⟩, _, ?_, rfl⟩
      · show List.map _ _ = _
        rw [List.map_map, hc]; try rfl
      · show List.map _ _ = _
        rw [List.map_map, hc]; try rfl
      · have := (delays_lt (7 - i)).2.2
        omega
    · rw [hs0]; simp [RevSt.new]
  have hfin : (reverb thru).stream (RevSt.reset s) (fun _ => ![0, 0]) 0 0 = (reverb thru).stream s0 (fun _ => ![0, 0]) 0 0 := heq
  rw [hfin, hnew] at hpos
  exact lt_irrefl _ hpos

/-- **C76.** Blocks equal ticks. -/
theorem C76_block (F : Node ℝ 1 1) : BlockEqualsTick (reverb F) := (tickBlock_iff _).1 (tickBlock_ofTick _ _)

end Fundsp.Reverb
