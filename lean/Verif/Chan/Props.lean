import Verif.Chan.Model

/-! C26 (ring) and C27 (snoop). -/

namespace Fundsp.Chan

variable {α : Type}

/-! ## C26 -/

/-- Frames accepted so far, from the observations. -/
def accepted : List (RObs α) → List α
  | [] => []
  | .sent x true :: os => x :: accepted os
  | _ :: os => accepted os

/-- Specification of what a ring may do, by observations only: `d` frames were delivered of the accepted frames `acc`.
A send is refused exactly when `cap` accepted frames are undelivered; a tick yields the next undelivered frame, or silence exactly
when there is none. -/
inductive RingOK (cap : Nat) (zero : α) : List α → Nat → List (RObs α) → Prop
  | nil (acc d) : RingOK cap zero acc d []
  | accept (acc d x os) : acc.length < d + cap → RingOK cap zero (acc ++ [x]) d os → RingOK cap zero acc d (.sent x true :: os)
  | refuse (acc d x os) : d + cap ≤ acc.length → RingOK cap zero acc d os → RingOK cap zero acc d (.sent x false :: os)
  | deliver (acc d x os) : acc[d]? = some x → RingOK cap zero acc (d + 1) os → RingOK cap zero acc d (.out x :: os)
  | silence (acc d os) : acc.length = d → RingOK cap zero acc d os → RingOK cap zero acc d (.out zero :: os)

theorem ring_ok (zero : α) (es : List (REv α)) : ∀ (c : Channel α) (acc : List α) (d : Nat), d ≤ acc.length →
    c.queue = acc.drop d → RingOK c.cap zero acc d (ringRun zero c es).2 := by
  induction es with
  | nil => intro c acc d _ _; exact .nil ..
  | cons e es ih =>
    intro c acc d hd hq
    have hl : c.queue.length = acc.length - d := by rw [hq, List.length_drop]
    cases e with
    | send x =>
      simp only [ringRun, ringStep, Channel.trySend]
      by_cases h : c.queue.length < c.cap
      · rw [if_pos h]
        refine .accept _ _ _ _ (by omega) (ih { c with queue := c.queue ++ [x] } _ _ (by simp; omega) ?_)
        rw [List.drop_append_of_le_length hd, ← hq]
      · rw [if_neg h]
        exact .refuse _ _ _ _ (by omega) (ih _ _ _ hd hq)
    | tick =>
      simp only [ringRun, ringStep, ringTick, Channel.tryRecv]
      match hc : c.queue with
      | [] =>
        refine .silence _ _ _ (by rw [hc] at hl; simp at hl; omega) (ih _ _ _ hd hq)
      | x :: q =>
        rw [hc] at hq
        have hx : acc[d]? = some x := by
          have := congrArg (fun l => l[0]?) hq
          simpa [List.getElem?_drop] using this.symm
        have hlt : d < acc.length := (List.getElem?_eq_some_iff.1 hx).1
        refine .deliver _ _ _ _ hx (ih { c with queue := q } _ _ hlt ?_)
        have := congrArg List.tail hq
        simpa [List.tail_drop] using this

/-- **C26** For every interleaving of sends and ticks the observations of a ring are those of the specification: frames come out in
the order sent, each once, silence exactly when nothing is queued, and refusals exactly when the queue is full. -/
theorem C26_ring (zero : α) (capacity : Nat) (es : List (REv α)) :
    RingOK capacity zero [] 0 (ringRun zero (ringNew capacity) es).2 :=
  ring_ok zero es (ringNew capacity) [] 0 (Nat.le_refl _) rfl

/-- Outputs in an observation list. -/
def outs : List (RObs α) → List α
  | [] => []
  | .out y :: os => y :: outs os
  | _ :: os => outs os

/-- Consequence of the specification, in terms of sequences: dropping some silent outputs, the output is a prefix of what was sent. -/
theorem ringOK_prefix {cap : Nat} {zero : α} {acc : List α} {d : Nat} {os : List (RObs α)} (h : RingOK cap zero acc d os)
    (hd : d ≤ acc.length) : ∃ del : List (α × Bool), outs os = del.map Prod.fst ∧ (∀ p ∈ del, p.2 = false → p.1 = zero) ∧
      ((del.filter Prod.snd).map Prod.fst) <+: (acc.drop d ++ accepted os) := by
  induction h with
  | nil => exact ⟨[], rfl, by simp, by simp⟩
  | accept acc d x os _ _ ih =>
    obtain ⟨del, h1, h2, h3⟩ := ih (by simp; omega)
    refine ⟨del, h1, h2, ?_⟩
    rw [List.drop_append_of_le_length hd] at h3
    simpa [accepted] using h3
  | refuse acc d x os _ _ ih =>
    obtain ⟨del, h1, h2, h3⟩ := ih hd
    exact ⟨del, h1, h2, h3⟩
  | deliver acc d x os hx _ ih =>
    have hlt := (List.getElem?_eq_some_iff.1 hx).1
    obtain ⟨del, h1, h2, h3⟩ := ih hlt
    refine ⟨(x, true) :: del, by simp [outs, h1], ?_, ?_⟩
    · intro p hp
      rcases List.mem_cons.1 hp with rfl | hp
      · simp
      · exact h2 p hp
    · rw [List.drop_eq_getElem_cons hlt]
      have : acc[d] = x := (List.getElem?_eq_some_iff.1 hx).2
      rw [this]
      simpa [accepted] using h3
  | silence acc d os he _ ih =>
    obtain ⟨del, h1, h2, h3⟩ := ih hd
    refine ⟨(zero, false) :: del, by simp [outs, h1], ?_, ?_⟩
    · intro p hp
      rcases List.mem_cons.1 hp with rfl | hp
      · simp
      · exact h2 p hp
    · simpa [accepted] using h3

/-- **C26** sequence form: the outputs, leaving out the silent underruns, are a prefix of the accepted frames. -/
theorem C26_order (zero : α) (capacity : Nat) (es : List (REv α)) :
    ∃ del : List (α × Bool), outs (ringRun zero (ringNew capacity) es).2 = del.map Prod.fst ∧
      (∀ p ∈ del, p.2 = false → p.1 = zero) ∧
      ((del.filter Prod.snd).map Prod.fst) <+: accepted (ringRun zero (ringNew capacity) es).2 := by
  simpa using ringOK_prefix (C26_ring zero capacity es) (Nat.le_refl _)

example : (ringRun 0 (ringNew 2) [.tick, .send 5, .send 6, .send 7, .tick, .tick, .tick]).2 =
    [.out (0 : Int), .sent 5 true, .sent 6 true, .sent 7 false, .out 5, .out 6, .out 0] := rfl

/-! ## C27 -/

/-- Specification of the recorder: samples since the last boundary, and whole chunks of 64. -/
def chunk : List α × List (List α) → α → List α × List (List α)
  | (p, c), x => if p.length + 1 = 64 then ([], c ++ [p ++ [x]]) else (p ++ [x], c)

/-- Signal carried by an event. -/
def SEv.samples : SEv α → List α
  | .tick x => [x]
  | .block size inp _ => (List.range size).map (inp 0)
  | .reset => []
  | .get => []

/-- Chunks of 64 the backend completes over a list of events; a reset discards the unfinished chunk. -/
def chunks : List α × List (List α) → List (SEv α) → List α × List (List α)
  | p, [] => p
  | p, .reset :: es => chunks ([], p.2) es
  | p, e :: es => chunks (e.samples.foldl chunk p) es

/-- Buffers returned by `get`. -/
def received : List (SObs α) → List (List α)
  | [] => []
  | .got (some b) :: os => b :: received os
  | _ :: os => received os

/-- Samples put out by the backend. -/
def played : List (SObs α) → List α
  | [] => []
  | .out y :: os => y ++ played os
  | _ :: os => played os

def allSamples (es : List (SEv α)) : List α := es.flatMap SEv.samples

/-- Front holds the history `h` (oldest first). -/
structure FrontOK (zero : α) (N : Nat) (f : Front α) (h : List α) : Prop where
  len : f.latest.length = N
  index : f.index = h.length % N
  total : f.total = h.length
  latest : ∀ j, j < N → f.latest[(h.length + N - j - 1) % N]? = some (h.reverse[j]?.getD zero)

theorem FrontOK.push {zero : α} {N : Nat} (hN : ∃ k, N = 2 ^ k) {f : Front α} {h : List α} (ok : FrontOK zero N f h) (x : α) :
    FrontOK zero N (f.push x) (h ++ [x]) := by
  obtain ⟨k, hk⟩ := hN
  have hpos : 0 < N := by rw [hk]; exact Nat.two_pow_pos k
  have hand : ∀ m, m &&& (N - 1) = m % N := by intro m; rw [hk]; exact Nat.and_two_pow_sub_one_eq_mod m k
  have hil : f.index < N := by rw [ok.index]; exact Nat.mod_lt _ hpos
  refine ⟨by simp [Front.push, ok.len], ?_, by simp [Front.push, ok.total], ?_⟩
  · simp only [Front.push, ok.len, hand, ok.index, List.length_append, List.length_singleton]
    rw [Nat.mod_add_mod]
  · intro j hj
    simp only [Front.push, List.length_append, List.length_singleton, List.reverse_append, List.reverse_cons, List.reverse_nil,
      List.nil_append, List.singleton_append]
    rw [List.getElem?_set]
    by_cases h0 : j = 0
    · subst h0
      have : (h.length + 1 + N - 0 - 1) % N = f.index := by
        rw [ok.index]
        have : h.length + 1 + N - 0 - 1 = h.length + N := by omega
        rw [this, Nat.add_mod_right]
      rw [this, if_pos rfl, if_pos (by rw [ok.len]; exact hil)]
      simp
    · obtain ⟨i, rfl⟩ : ∃ i, j = i + 1 := ⟨j - 1, by omega⟩
      have e : h.length + 1 + N - (i + 1) - 1 = h.length + N - i - 1 := by omega
      rw [e]
      have hne : f.index ≠ (h.length + N - i - 1) % N := by
        rw [ok.index]
        intro hc
        have hc' : h.length % N = (h.length % N + (N - i - 1)) % N := by
          conv => lhs; rw [hc]
          have : h.length + N - i - 1 = h.length + (N - i - 1) := by omega
          rw [this, Nat.mod_add_mod]
        have hlt : h.length % N < N := Nat.mod_lt _ hpos
        generalize h.length % N = m at hc' hlt
        by_cases hlt2 : m + (N - i - 1) < N
        · rw [Nat.mod_eq_of_lt hlt2] at hc'; omega
        · rw [Nat.mod_eq_sub_mod (by omega), Nat.mod_eq_of_lt (by omega)] at hc'; omega
      rw [if_neg hne, ok.latest i (by omega)]
      simp

theorem FrontOK.foldl {zero : α} {N : Nat} (hN : ∃ k, N = 2 ^ k) (b : List α) : ∀ {f : Front α} {h : List α}, FrontOK zero N f h →
    FrontOK zero N (b.foldl Front.push f) (h ++ b) := by
  induction b with
  | nil => intro f h ok; simpa using ok
  | cons x b ih => intro f h ok; simpa using ih (ok.push hN x)

theorem FrontOK.at {zero : α} {N : Nat} (hN : ∃ k, N = 2 ^ k) {f : Front α} {h : List α} (ok : FrontOK zero N f h) {i : Nat}
    (hi : i < N) : f.at i = some (h.reverse[i]?.getD zero) := by
  obtain ⟨k, hk⟩ := hN
  have hand : ∀ m, m &&& (N - 1) = m % N := by intro m; rw [hk]; exact Nat.and_two_pow_sub_one_eq_mod m k
  rw [Front.at, ok.len, if_pos (by omega), hand, ← ok.latest i hi]
  congr 1
  rw [ok.index]
  have e1 : h.length % N + N - i - 1 = h.length % N + (N - i - 1) := by omega
  have e2 : h.length + N - i - 1 = h.length + (N - i - 1) := by omega
  rw [e1, e2, Nat.mod_add_mod]

/-- State of the whole snoop: history seen by the front, pending samples, chunks accepted by the channel so far. -/
structure SnoopOK (zero : α) (N : Nat) (s : Snoop α) (rec : List (List α)) (pend : List α) (acc : List (List α)) : Prop where
  front : FrontOK zero N s.front rec.flatten
  fifo : rec ++ s.chan.queue = acc
  cap : s.chan.cap = 1024
  buf : s.back.buffer.length = 64
  idx : s.back.index = pend.length
  short : pend.length < 64
  pre : s.back.buffer.take pend.length = pend

theorem record_ok {zero : α} {N : Nat} {s : Snoop α} {rec : List (List α)} {pend : List α} {acc : List (List α)}
    (ok : SnoopOK zero N s rec pend acc) (x : α) :
    ∃ acc', SnoopOK zero N (record s x) rec (chunk (pend, []) x).1 (acc ++ acc') ∧ acc'.Sublist (chunk (pend, []) x).2 ∧
      (s.chan.queue.length < 1024 → acc' = (chunk (pend, []) x).2) := by
  have hset : (s.back.buffer.set s.back.index x).take (pend.length + 1) = pend ++ [x] := by
    rw [ok.idx, List.take_add_one, List.take_set_of_le (Nat.le_refl _), ok.pre]
    simp [ok.buf, ok.short]
  by_cases h : pend.length + 1 = 64
  · have hb : s.back.buffer.set s.back.index x = pend ++ [x] := by
      rw [← hset, List.take_of_length_le]; simp [ok.buf, h]
    simp only [chunk, h, if_true, record, ok.idx, List.nil_append]
    rw [ok.idx] at hb
    rw [hb]
    by_cases hq : s.chan.queue.length < 1024
    · refine ⟨[pend ++ [x]], ?_, by simp, fun _ => rfl⟩
      refine ⟨ok.front, ?_, ?_, by simp [h], rfl, by simp, rfl⟩
      · simp only [Channel.trySend, ok.cap, hq, if_true]
        rw [← ok.fifo]; simp
      · simp only [Channel.trySend]; split <;> exact ok.cap
    · refine ⟨[], ?_, by simp, fun h => absurd h hq⟩
      refine ⟨ok.front, ?_, ?_, by simp [h], rfl, by simp, rfl⟩
      · simp only [Channel.trySend, ok.cap, hq, if_false]
        simpa using ok.fifo
      · simp only [Channel.trySend]; split <;> exact ok.cap
  · have hidx : s.back.index + 1 ≠ 64 := by rw [ok.idx]; exact h
    simp only [chunk, h, if_false, record, hidx]
    refine ⟨[], ?_, by simp, fun _ => rfl⟩
    refine ⟨ok.front, by simpa using ok.fifo, ok.cap, by simp [ok.buf], by simp [ok.idx], ?_, ?_⟩
    · have := ok.short; simp; omega
    · simpa using hset

theorem chunk_acc (p : List α) (c : List (List α)) (x : α) : chunk (p, c) x = ((chunk (p, []) x).1, c ++ (chunk (p, []) x).2) := by
  simp only [chunk]; split <;> simp

theorem foldl_chunk_acc (xs : List α) : ∀ (p : List α) (c : List (List α)),
    xs.foldl chunk (p, c) = ((xs.foldl chunk (p, [])).1, c ++ (xs.foldl chunk (p, [])).2) := by
  induction xs with
  | nil => intro p c; simp
  | cons x xs ih =>
    intro p c
    rw [List.foldl_cons, List.foldl_cons, chunk_acc, ih, show chunk (p, []) x = ((chunk (p, []) x).1, (chunk (p, []) x).2) from rfl, ih _ (chunk (p, []) x).2]
    simp

theorem foldl_record_ok {zero : α} {N : Nat} (xs : List α) : ∀ {s : Snoop α} {rec : List (List α)} {pend : List α}
    {acc : List (List α)}, SnoopOK zero N s rec pend acc →
    ∃ acc', SnoopOK zero N (xs.foldl record s) rec (xs.foldl chunk (pend, [])).1 (acc ++ acc') ∧
      acc'.Sublist (xs.foldl chunk (pend, [])).2 ∧
      (s.chan.queue.length + (xs.foldl chunk (pend, [])).2.length ≤ 1024 → acc' = (xs.foldl chunk (pend, [])).2) := by
  induction xs with
  | nil => intro s rec pend acc ok; exact ⟨[], by simpa using ok, by simp, fun _ => rfl⟩
  | cons x xs ih =>
    intro s rec pend acc ok
    obtain ⟨a1, o1, s1, n1⟩ := record_ok ok x
    obtain ⟨a2, o2, s2, n2⟩ := ih o1
    rw [List.foldl_cons, List.foldl_cons]
    have e : List.foldl chunk (chunk (pend, []) x) xs = ((xs.foldl chunk ((chunk (pend, []) x).1, [])).1,
        (chunk (pend, []) x).2 ++ (xs.foldl chunk ((chunk (pend, []) x).1, [])).2) := foldl_chunk_acc xs _ _
    rw [e]
    refine ⟨a1 ++ a2, by rw [← List.append_assoc]; exact o2, s1.append s2, fun hlen => ?_⟩
    rw [List.length_append] at hlen
    have hq : (record s x).chan.queue.length = s.chan.queue.length + a1.length := by
      have f1 := congrArg List.length o1.fifo
      have f2 := congrArg List.length ok.fifo
      simp only [List.length_append] at f1 f2
      omega
    have hle := s1.length_le
    have h1 : a1 = (chunk (pend, []) x).2 := by
      by_cases h0 : (chunk (pend, []) x).2 = []
      · rw [h0] at s1 ⊢; exact List.sublist_nil.1 s1
      · have := List.length_pos_iff.2 h0
        exact n1 (by omega)
    have h2 := n2 (by rw [hq, h1]; omega)
    rw [h1, h2]

theorem get_ok {zero : α} {N : Nat} (hN : ∃ k, N = 2 ^ k) {s : Snoop α} {rec : List (List α)} {pend : List α} {acc : List (List α)}
    (ok : SnoopOK zero N s rec pend acc) :
    SnoopOK zero N (snoopGet s).1 (rec ++ (snoopGet s).2.toList) pend acc ∧
      ((snoopGet s).2 = none → rec = acc) := by
  match hq : s.chan.queue with
  | [] =>
    have : snoopGet s = (s, none) := by simp [snoopGet, Channel.tryRecv, hq]
    rw [this]
    refine ⟨by simpa using ok, fun _ => ?_⟩
    have := ok.fifo
    rwa [hq, List.append_nil] at this
  | b :: q =>
    have : snoopGet s = ({ s with chan := { s.chan with queue := q }, front := b.foldl Front.push s.front }, some b) := by
      simp [snoopGet, Channel.tryRecv, hq]
    rw [this]
    refine ⟨⟨?_, ?_, ok.cap, ok.buf, ok.idx, ok.short, ok.pre⟩, by simp⟩
    · simpa using ok.front.foldl hN b
    · have := ok.fifo
      rw [hq] at this
      simpa using this

theorem snoopProcess_fst (s : Snoop α) (size : Nat) (inp old : Buf α 1) :
    (snoopProcess s size inp old).1 = ((List.range size).map (inp 0)).foldl record s := by
  simp only [snoopProcess, List.foldl_map]

theorem chunks_acc (es : List (SEv α)) : ∀ (p : List α) (c : List (List α)),
    chunks (p, c) es = ((chunks (p, []) es).1, c ++ (chunks (p, []) es).2) := by
  induction es with
  | nil => intro p c; simp [chunks]
  | cons e es ih =>
    intro p c
    have main : ∀ xs : List α, chunks (xs.foldl chunk (p, c)) es = ((chunks (xs.foldl chunk (p, [])) es).1,
        c ++ (chunks (xs.foldl chunk (p, [])) es).2) := by
      intro xs
      rw [foldl_chunk_acc, ih, show xs.foldl chunk (p, []) = ((xs.foldl chunk (p, [])).1, (xs.foldl chunk (p, [])).2) from rfl,
        ih _ (xs.foldl chunk (p, [])).2]
      simp
    cases e with
    | tick x => exact main _
    | block size inp old => exact main _
    | reset => exact ih _ _
    | get => exact main _

/-- The frontend keeps up: at every event fewer than 1024 buffers are waiting (and blocks have at most 64 samples). -/
def KeepsUp : Snoop α → List (SEv α) → Prop
  | _, [] => True
  | s, e :: es => s.chan.queue.length < 1024 ∧ e.samples.length ≤ 64 ∧ KeepsUp (snoopStep s e).1 es

theorem chunk_len (xs : List α) : ∀ p : List α × List (List α), p.1.length < 64 → (xs.foldl chunk p).1.length < 64 ∧
    64 * (xs.foldl chunk p).2.length + (xs.foldl chunk p).1.length = 64 * p.2.length + p.1.length + xs.length := by
  induction xs with
  | nil => intro p hp; exact ⟨hp, rfl⟩
  | cons x xs ih =>
    intro p hp
    obtain ⟨p, c⟩ := p
    have hp' : p.length < 64 := hp
    have : (chunk (p, c) x).1.length < 64 ∧ 64 * (chunk (p, c) x).2.length + (chunk (p, c) x).1.length =
        64 * c.length + p.length + 1 := by
      simp only [chunk]
      split
      · simp; omega
      · simp; omega
    have h2 := ih _ this.1
    rw [List.foldl_cons]
    refine ⟨h2.1, ?_⟩
    rw [h2.2, this.2]
    simp only [List.length_cons]; omega

theorem run_ok {zero : α} {N : Nat} (hN : ∃ k, N = 2 ^ k) (es : List (SEv α)) : ∀ {s : Snoop α} {rec : List (List α)}
    {pend : List α} {acc : List (List α)}, SnoopOK zero N s rec pend acc →
    ∃ acc', SnoopOK zero N (snoopRun s es).1 (rec ++ received (snoopRun s es).2) (chunks (pend, []) es).1 (acc ++ acc') ∧
      acc'.Sublist (chunks (pend, []) es).2 ∧ (KeepsUp s es → acc' = (chunks (pend, []) es).2) := by
  induction es with
  | nil => intro s rec pend acc ok; exact ⟨[], by simpa [snoopRun, received, chunks] using ok, by simp, fun _ => rfl⟩
  | cons e es ih =>
    intro s rec pend acc ok
    have main : ∀ xs : List α, ∀ s', s' = xs.foldl record s →
        ∃ acc', SnoopOK zero N (snoopRun s' es).1 (rec ++ received (snoopRun s' es).2)
            (chunks (xs.foldl chunk (pend, [])) es).1 (acc ++ acc') ∧ acc'.Sublist (chunks (xs.foldl chunk (pend, [])) es).2 ∧
            (s.chan.queue.length < 1024 ∧ xs.length ≤ 64 ∧ KeepsUp s' es → acc' = (chunks (xs.foldl chunk (pend, [])) es).2) := by
      rintro xs _ rfl
      obtain ⟨a1, o1, s1, n1⟩ := foldl_record_ok xs ok
      obtain ⟨a2, o2, s2, n2⟩ := ih o1
      have e := chunks_acc es (xs.foldl chunk (pend, [])).1 (xs.foldl chunk (pend, [])).2
      refine ⟨a1 ++ a2, ?_, ?_, ?_⟩
      · rw [← List.append_assoc, show xs.foldl chunk (pend, []) = ((xs.foldl chunk (pend, [])).1, (xs.foldl chunk (pend, [])).2) from rfl, e]
        exact o2
      · rw [show xs.foldl chunk (pend, []) = ((xs.foldl chunk (pend, [])).1, (xs.foldl chunk (pend, [])).2) from rfl, e]
        exact s1.append s2
      · rintro ⟨hq, hx, hk⟩
        have hl := (chunk_len xs (pend, []) ok.short).2
        have hs := ok.short
        simp only [List.length_nil] at hl
        rw [show xs.foldl chunk (pend, []) = ((xs.foldl chunk (pend, [])).1, (xs.foldl chunk (pend, [])).2) from rfl, e,
          n1 (by omega), n2 hk]
    cases e with
    | tick x => exact main [x] _ rfl
    | block size inp old => exact main _ _ (snoopProcess_fst s size inp old)
    | reset =>
      have : SnoopOK zero N (snoopReset s) rec [] acc := ⟨ok.front, ok.fifo, ok.cap, ok.buf, rfl, by simp, rfl⟩
      obtain ⟨a, o, s', n⟩ := ih this
      exact ⟨a, o, s', fun h => n h.2.2⟩
    | get =>
      obtain ⟨o1, _⟩ := get_ok hN ok
      obtain ⟨a2, o2, s2, n2⟩ := ih o1
      refine ⟨a2, ?_, s2, fun h => n2 h.2.2⟩
      have hr : received (SObs.got (snoopGet s).2 :: (snoopRun (snoopGet s).1 es).2) =
          (snoopGet s).2.toList ++ received (snoopRun (snoopGet s).1 es).2 := by
        cases (snoopGet s).2 <;> rfl
      show SnoopOK zero N (snoopRun (snoopGet s).1 es).1 (rec ++ received (SObs.got (snoopGet s).2 :: (snoopRun (snoopGet s).1 es).2)) _ _
      rw [hr, ← List.append_assoc]
      exact o2

theorem le_nextPowerOfTwo (n : Nat) : n ≤ nextPowerOfTwo n := by
  unfold nextPowerOfTwo
  split
  · assumption
  · have := Nat.lt_log2_self (n := n - 1)
    omega

theorem isPow2 (n : Nat) : ∃ k, nextPowerOfTwo n = 2 ^ k := by
  unfold nextPowerOfTwo
  split
  · exact ⟨0, rfl⟩
  · exact ⟨_, rfl⟩

/-- The capacity is the smallest power of two that is large enough. -/
theorem C27_capacity (n k : Nat) (h : n ≤ 2 ^ k) : n ≤ nextPowerOfTwo n ∧ nextPowerOfTwo n ≤ 2 ^ k := by
  refine ⟨le_nextPowerOfTwo n, ?_⟩
  unfold nextPowerOfTwo
  split
  · exact Nat.one_le_two_pow
  · apply Nat.pow_le_pow_right (by decide)
    have : Nat.log2 (n - 1) < k := (Nat.log2_lt (by omega)).2 (by omega)
    omega

theorem new_ok (zero : α) (capacity : Nat) : SnoopOK zero (nextPowerOfTwo capacity) (snoopNew zero capacity) [] [] [] := by
  obtain ⟨k, hk⟩ := isPow2 capacity
  have hpos : 0 < (nextPowerOfTwo capacity) := by rw [hk]; exact Nat.two_pow_pos k
  refine ⟨⟨by simp [snoopNew], by simp [snoopNew], rfl, ?_⟩, rfl, rfl, by simp [snoopNew], rfl, by simp, by simp⟩
  intro j hj
  simp only [snoopNew, List.flatten_nil, List.length_nil, List.reverse_nil]
  rw [List.getElem?_replicate, if_pos (Nat.mod_lt _ hpos)]
  rfl

/-- **C27** After any events, `at(i)` for every `i` below the capacity is the `i`-th most recent sample of the buffers received
(zero if fewer were received), `total` counts them, and the capacity is at least the requested one. -/
theorem C27_history (zero : α) (capacity : Nat) (es : List (SEv α)) (i : Nat) :
    let r := snoopRun (snoopNew zero capacity) es
    capacity ≤ r.1.front.latest.length ∧ r.1.front.total = (received r.2).flatten.length ∧
      (i < r.1.front.latest.length → r.1.front.at i = some ((received r.2).flatten.reverse[i]?.getD zero)) := by
  intro r
  have hN : ∃ k, (nextPowerOfTwo capacity) = 2 ^ k := isPow2 capacity
  obtain ⟨acc, ok, _, _⟩ := run_ok hN es (new_ok zero capacity)
  simp only [List.nil_append] at ok
  refine ⟨by rw [ok.front.len]; exact le_nextPowerOfTwo capacity, ok.front.total, fun hi => ?_⟩
  exact ok.front.at hN (by rw [ok.front.len] at hi; exact hi)

/-- **C27** The received buffers, followed by those still in flight, are chunks of 64 consecutive samples of the signal that
passed through the backend, in order, with none invented or repeated; none is lost while the frontend keeps up. -/
theorem C27_delivery (zero : α) (capacity : Nat) (es : List (SEv α)) :
    let r := snoopRun (snoopNew zero capacity) es
    (received r.2 ++ r.1.chan.queue).Sublist (chunks ([], []) es).2 ∧
      (KeepsUp (snoopNew zero capacity) es → received r.2 ++ r.1.chan.queue = (chunks ([], []) es).2) ∧
      (∀ b ∈ received r.2, b.length = 64) := by
  intro r
  have hN : ∃ k, (nextPowerOfTwo capacity) = 2 ^ k := isPow2 capacity
  obtain ⟨acc, ok, sub, full⟩ := run_ok hN es (new_ok zero capacity)
  simp only [List.nil_append] at ok
  have h := ok.fifo
  refine ⟨by rw [h]; exact sub, fun hk => by rw [h]; exact full hk, ?_⟩
  have h64 : ∀ (es : List (SEv α)) (p : List α × List (List α)), (∀ b ∈ p.2, b.length = 64) → ∀ b ∈ (chunks p es).2, b.length = 64 := by
    intro es
    have hx : ∀ (xs : List α) (p : List α × List (List α)), (∀ b ∈ p.2, b.length = 64) → ∀ b ∈ (xs.foldl chunk p).2, b.length = 64 := by
      intro xs
      induction xs with
      | nil => intro p hp; exact hp
      | cons x xs ih =>
        intro p hp
        refine ih _ ?_
        obtain ⟨p, c⟩ := p
        simp only [chunk]
        split
        · rename_i hpl
          intro b hb
          rcases List.mem_append.1 hb with hb | hb
          · exact hp b hb
          · simp only [List.mem_singleton] at hb; subst hb; simpa using hpl
        · exact hp
    induction es with
    | nil => intro p hp; exact hp
    | cons e es ih =>
      intro p hp
      cases e with
      | reset => exact ih _ hp
      | tick x => exact ih _ (hx _ p hp)
      | block size inp old => exact ih _ (hx _ p hp)
      | get => exact ih _ (hx _ p hp)
  intro b hb
  exact h64 es ([], []) (by simp) b (sub.subset (by rw [← h]; exact List.mem_append_left _ hb))

/-- Samples of a chunk state. -/
def flat (p : List α × List (List α)) : List α := p.2.flatten ++ p.1

theorem flat_foldl (xs : List α) : ∀ p, flat (xs.foldl chunk p) = flat p ++ xs := by
  induction xs with
  | nil => intro p; simp
  | cons x xs ih =>
    intro p
    rw [List.foldl_cons, ih]
    obtain ⟨p, c⟩ := p
    simp only [flat, chunk]
    split <;> simp

/-- **C27** Without resets the chunks followed by the unfinished chunk are exactly the signal. -/
theorem C27_chunks (es : List (SEv α)) (hr : SEv.reset ∉ es) :
    (chunks ([], []) es).2.flatten ++ (chunks ([], []) es).1 = allSamples es := by
  have : ∀ (es : List (SEv α)) p, SEv.reset ∉ es → flat (chunks p es) = flat p ++ allSamples es := by
    intro es
    induction es with
    | nil => intro p _; simp [chunks, allSamples]
    | cons e es ih =>
      intro p hr
      have hr' : SEv.reset ∉ es := fun h => hr (List.mem_cons_of_mem _ h)
      have main : flat (chunks (e.samples.foldl chunk p) es) = flat p ++ allSamples (e :: es) := by
        rw [ih _ hr', flat_foldl]; simp [allSamples]
      cases e with
      | reset => simp at hr
      | tick x => exact main
      | block size inp old => exact main
      | get => exact main
  simpa [flat] using this es ([], []) hr

/-- **C27** Samples pass through unchanged, in ticks and in blocks. -/
theorem C27_through (es : List (SEv α)) : ∀ s : Snoop α, played (snoopRun s es).2 = allSamples es := by
  induction es with
  | nil => intro s; rfl
  | cons e es ih =>
    intro s
    cases e with
    | tick x => simp [snoopRun, snoopStep, snoopTick, played, ih, allSamples, SEv.samples]
    | reset => simp [snoopRun, snoopStep, played, ih, allSamples, SEv.samples]
    | get => simp [snoopRun, snoopStep, played, ih, allSamples, SEv.samples]
    | block size inp old =>
      have h : (List.range size).map ((snoopProcess s size inp old).2 0) = (List.range size).map (inp 0) := by
        apply List.map_congr_left
        intro k hk
        simp only [List.mem_range] at hk
        simp only [snoopProcess, setItems]
        rw [if_pos]
        simp only [simdItems, Nat.shiftRight_eq_div_pow]
        omega
      simp only [snoopRun, snoopStep, played, ih, h]
      simp [allSamples, SEv.samples]

/-- **C27** `update` drains the channel: afterwards everything the channel accepted has been received. -/
theorem C27_update : ∀ (n : Nat) (s : Snoop α), s.chan.queue.length ≤ n → (snoopUpdate n s).chan.queue = [] := by
  intro n
  induction n with
  | zero => intro s h; exact List.length_eq_zero_iff.1 (Nat.le_zero.1 h)
  | succ n ih =>
    intro s h
    match hq : s.chan.queue with
    | [] => simp [snoopUpdate, snoopGet, Channel.tryRecv, hq]
    | b :: q =>
      have : snoopGet s = ({ s with chan := { s.chan with queue := q }, front := b.foldl Front.push s.front }, some b) := by
        simp [snoopGet, Channel.tryRecv, hq]
      simp only [snoopUpdate, this]
      exact ih _ (by rw [hq] at h; simpa using h)

/-- A ramp of 64 ticks, polled once: the front shows the most recent sample first. -/
example : (snoopRun (snoopNew 0 3) ((List.range 64).map (fun k => .tick (k : Int)) ++ [.get, .tick 99])).1.front.at 0 = some 63 := by
  decide +kernel

example : (snoopRun (snoopNew 0 3) ((List.range 64).map (fun k => .tick (k : Int)) ++ [.get, .tick 99])).1.front.at 3 = some 60 := by
  decide +kernel

end Fundsp.Chan
