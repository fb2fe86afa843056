import Verif.Wave.Read
import Verif.Wave.EditProps

/-! C95: loading audio files. -/

noncomputable section
namespace Fundsp.Wv

variable {α P E : Type}

/-! ## Specification -/

/-- What a decoder makes of packets given to it one after the other. -/
def results (D : Decoder α P E) : D.σ → List P → List (Except E (Chunk α))
  | _, [] => []
  | s, p :: ps => (D.decode s p).2 :: results D (D.decode s p).1 ps

/-- The samples of a channel in all pieces, one after the other. -/
def joined (cs : List (Chunk α)) (k : Nat) : List α := (cs.map fun c => (List.range c.frames).map (c.chan k)).flatten

/-- The track asked for: the one with the given number or, if none is given, the first one with a known codec. -/
def Chosen (tracks : List Track) (track : Option Nat) (t : Track) : Prop :=
  (∃ i, track = some i ∧ tracks[i]? = some t) ∨
  (track = none ∧ t.known = true ∧ ∃ pre post, tracks = pre ++ t :: post ∧ ∀ t' ∈ pre, t'.known = false)

/-- Ids of tracks are distinct. -/
def DistinctIds (tracks : List Track) : Prop := tracks.Pairwise fun a b => a.id ≠ b.id

/-! ## Lemmas -/

theorem addChunk_lists [Zero α] {rate : ℝ} {n L : Nat} {g : Nat → List α} {c : Chunk α} (hn : c.channels = n) (h0 : 0 < n) (hg : ∀ k, k < n → (g k).length = L) :
    addChunk ⟨(List.range n).map g, rate, L⟩ c = some ⟨(List.range n).map (fun k => g k ++ (List.range c.frames).map (c.chan k)), rate, L + c.frames⟩ := by
  have e : (⟨(List.range n).map g, rate, L⟩ : Wave α) = tab rate n L (fun k i => ((g k)[i]?).getD 0) := by
    unfold tab
    congr 1
    apply List.map_congr_left
    intro k hk
    apply List.ext_getElem?
    intro i
    rw [List.getElem?_map]
    have hl := hg k (List.mem_range.1 hk)
    by_cases hi : i < L
    · rw [List.getElem?_range hi, List.getElem?_eq_getElem (by omega)]; simp [hl, hi]
    · rw [List.getElem?_eq_none (by omega), List.getElem?_eq_none (by simpa using hi)]; rfl
  rw [e, addChunk_tab (by omega) (by omega)]
  congr 1
  unfold tab
  congr 1
  apply List.map_congr_left
  intro k hk
  have hk' := List.mem_range.1 hk
  have hl := hg k hk'
  apply List.ext_getElem?
  intro i
  rw [List.getElem?_map, List.getElem?_append]
  by_cases hi : i < L
  · rw [List.getElem?_range (by omega), if_pos (by omega), List.getElem?_eq_getElem (by omega)]
    simp [hl, hi]
  · rw [if_neg (by omega), List.getElem?_map]
    by_cases hj : i < L + c.frames
    · rw [List.getElem?_range hj, List.getElem?_range (by omega)]
      simp [hi, hl, hn, hk']
    · rw [List.getElem?_eq_none (by simpa using hj), List.getElem?_eq_none (by simp; omega)]; rfl

theorem readLoop_filter [Zero α] (D : Decoder α P E) (trackOf : P → Nat) (id : Nat) (stop : E) (ps : List P) (s : D.σ) (w : Option (Wave α)) :
    readLoop D trackOf id stop ps s w = readLoop D trackOf id stop (ps.filter fun p => trackOf p == id) s w := by
  induction ps generalizing s w with
  | nil => rfl
  | cons p ps ih =>
    by_cases h : trackOf p = id
    · rw [List.filter_cons_of_pos (by simpa using h)]
      unfold readLoop
      rw [if_neg (by simpa using h), if_neg (by simpa using h)]
      split
      · rfl
      · congr 1
        funext w'
        exact ih _ _
    · rw [List.filter_cons_of_neg (by simpa using h)]
      rw [readLoop.eq_3, if_pos h]
      exact ih s w

/-- One packet of the track. -/
theorem readLoop_cons [Zero α] (D : Decoder α P E) (trackOf : P → Nat) (id : Nat) (stop : E) (p : P) (ps : List P) (s : D.σ) (w : Option (Wave α)) (h : trackOf p = id) :
    readLoop D trackOf id stop (p :: ps) s w =
      match (D.decode s p).2 with
      | .error e => some (.error e)
      | .ok c => (addChunk (w.getD (Wave.new c.channels c.rate)) c).bind fun w => readLoop D trackOf id stop ps (D.decode s p).1 (some w) := by
  rw [readLoop.eq_3, if_neg (by simpa using h)]
  rcases D.decode s p with ⟨s', e | c⟩ <;> rfl

/-- The pieces are appended, then the rest is read. -/
theorem readLoop_pieces [Zero α] (D : Decoder α P E) (trackOf : P → Nat) (id : Nat) (stop : E) (n : Nat) (rate : ℝ) (cs : List (Chunk α)) (hcs : ∀ c ∈ cs, c.channels = n ∧ c.rate = rate) :
    ∀ (ps : List P) (s : D.σ) (g : Nat → List α) (L : Nat) (rest : List (Except E (Chunk α))), (∀ p ∈ ps, trackOf p = id) → (∀ k, k < n → (g k).length = L) → (n = 0 → L = 0) →
      results D s ps = cs.map Except.ok ++ rest →
      ∃ ps' s', results D s' ps' = rest ∧ (∀ p ∈ ps', trackOf p = id) ∧
        readLoop D trackOf id stop ps s (some ⟨(List.range n).map g, rate, L⟩) =
        readLoop D trackOf id stop ps' s' (some ⟨(List.range n).map (fun k => g k ++ joined cs k), rate, if n = 0 then 0 else L + (cs.map Chunk.frames).sum⟩) := by
  induction cs with
  | nil =>
    intro ps s g L rest hps _ h0 hr
    refine ⟨ps, s, hr, hps, ?_⟩
    congr 2
    simp only [joined, List.map_nil, List.flatten_nil, List.append_nil, List.sum_nil, Nat.add_zero]
    congr 1
    by_cases h : n = 0
    · rw [if_pos h, h0 h]
    · rw [if_neg h]
  | cons c cs ih =>
    intro ps s g L rest hps hg h0 hr
    cases ps with
    | nil => simp [results] at hr
    | cons p ps =>
      simp only [results, List.map_cons, List.cons_append, List.cons.injEq] at hr
      obtain ⟨hr1, hr2⟩ := hr
      have hc := hcs c List.mem_cons_self
      by_cases hn : n = 0
      · obtain ⟨ps', s', h1, h2, h3⟩ := ih (fun c' h' => hcs c' (List.mem_cons_of_mem _ h')) ps (D.decode s p).1 g L rest (fun q hq => hps q (List.mem_cons_of_mem _ hq)) hg h0 hr2
        refine ⟨ps', s', h1, h2, ?_⟩
        rw [readLoop_cons _ _ _ _ _ _ _ _ (hps p List.mem_cons_self), hr1]
        simp only [Option.getD_some]
        rw [addChunk_none _ (by rw [hc.1, hn])]
        simp only [Option.bind_some]
        rw [h3]
        subst hn
        simp
      · obtain ⟨ps', s', h1, h2, h3⟩ := ih (fun c' h' => hcs c' (List.mem_cons_of_mem _ h')) ps (D.decode s p).1 (fun k => g k ++ (List.range c.frames).map (c.chan k)) (L + c.frames) rest
          (fun q hq => hps q (List.mem_cons_of_mem _ hq)) (fun k hk => by simp [hg k hk]) (fun h => absurd h hn) hr2
        refine ⟨ps', s', h1, h2, ?_⟩
        rw [readLoop_cons _ _ _ _ _ _ _ _ (hps p List.mem_cons_self), hr1]
        simp only [Option.getD_some]
        rw [addChunk_lists hc.1 (by omega) hg]
        simp only [Option.bind_some]
        rw [h3, if_neg hn, if_neg hn]
        congr 3
        · apply List.map_congr_left
          intro k _
          simp [joined]
        · simp [Nat.add_assoc]

/-- The same from the first packet. -/
theorem readLoop_start [Zero α] (D : Decoder α P E) (trackOf : P → Nat) (id : Nat) (stop : E) (n : Nat) (rate : ℝ) (cs : List (Chunk α)) (hne : cs ≠ []) (hcs : ∀ c ∈ cs, c.channels = n ∧ c.rate = rate)
    (ps : List P) (s : D.σ) (rest : List (Except E (Chunk α))) (hps : ∀ p ∈ ps, trackOf p = id) (hr : results D s ps = cs.map Except.ok ++ rest) :
      ∃ ps' s', results D s' ps' = rest ∧ (∀ p ∈ ps', trackOf p = id) ∧
        readLoop D trackOf id stop ps s none =
        readLoop D trackOf id stop ps' s' (some ⟨(List.range n).map (joined cs), rate, if n = 0 then 0 else (cs.map Chunk.frames).sum⟩) := by
  cases cs with
  | nil => exact absurd rfl hne
  | cons c cs =>
    have hc := hcs c List.mem_cons_self
    obtain ⟨ps', s', h1, h2, h3⟩ := readLoop_pieces D trackOf id stop n rate (c :: cs) hcs ps s (fun _ => []) 0 rest hps (fun _ _ => rfl) (fun _ => rfl) hr
    refine ⟨ps', s', h1, h2, ?_⟩
    have e : readLoop D trackOf id stop ps s none = readLoop D trackOf id stop ps s (some ⟨(List.range n).map (fun _ => []), rate, 0⟩) := by
      cases ps with
      | nil => simp [results] at hr
      | cons p ps =>
        simp only [results, List.map_cons, List.cons_append, List.cons.injEq] at hr
        rw [readLoop_cons _ _ _ _ _ _ _ _ (hps p List.mem_cons_self), readLoop_cons _ _ _ _ _ _ _ _ (hps p List.mem_cons_self), hr.1]
        simp only [Option.getD_some, Option.getD_none]
        rw [new_tab _ _ (fun _ _ => 0), hc.1, hc.2]
        rfl
    rw [e, h3]
    simp

theorem chosen_select {tracks : List Track} {track : Option Nat} {t : Track} (h : Chosen tracks track t) : selectTrack tracks track = some t := by
  rcases h with ⟨i, rfl, h⟩ | ⟨rfl, hk, pre, post, rfl, hp⟩
  · unfold selectTrack
    simp [h]
  · unfold selectTrack
    have e : ∀ x : Option Track, ((none : Option Nat).bind (fun i => (pre ++ t :: post)[i]?) <|> x) = x := fun x => rfl
    rw [e, List.find?_append]
    have : pre.find? (·.known) = none := by
      rw [List.find?_eq_none]
      intro t' ht'
      simp [hp t' ht']
    rw [this]
    simp [hk]

theorem find_id {tracks : List Track} {t : Track} (hd : DistinctIds tracks) (ht : t ∈ tracks) : tracks.find? (·.id == t.id) = some t := by
  induction tracks with
  | nil => cases ht
  | cons a l ih =>
    rw [DistinctIds, List.pairwise_cons] at hd
    rcases List.mem_cons.1 ht with rfl | h
    · simp
    · rw [List.find?_cons_of_neg (by simpa using hd.1 t h)]
      exact ih hd.2 h

theorem chosen_mem {tracks : List Track} {track : Option Nat} {t : Track} (h : Chosen tracks track t) : t ∈ tracks := by
  rcases h with ⟨i, rfl, h⟩ | ⟨rfl, hk, pre, post, rfl, hp⟩
  · exact List.mem_of_getElem? h
  · simp

theorem decode_chosen [Zero α] (D : Decoder α P E) (notFound : E) (r : Reader P E) (track : Option Nat) (t : Track) (s : D.σ)
    (hd : DistinctIds r.tracks) (ht : Chosen r.tracks track t) (hm : D.make t = .ok s) :
    decode D notFound (.ok r) track = readLoop D r.trackOf t.id r.stop (r.packets.filter fun p => r.trackOf p == t.id) s none := by
  unfold decode
  simp only
  rw [chosen_select ht]
  simp only
  rw [find_id hd (chosen_mem ht)]
  simp only
  rw [hm]
  exact readLoop_filter _ _ _ _ _ _ _

/-! ## Theorems -/

/-- **C95, the wave loaded.** If the packets of the chosen track can be decoded, all with the same number of channels and sample rate, and there is at least one, then loading succeeds: the wave has
these channels and this rate, and every channel consists of the decoded samples of that channel, in the order of the packets, without gaps. Packets of other tracks do not matter. -/
theorem C95_load [Zero α] (D : Decoder α P E) (notFound : E) (r : Reader P E) (track : Option Nat) (t : Track) (s : D.σ) (cs : List (Chunk α)) (n : Nat) (rate : ℝ)
    (hd : DistinctIds r.tracks) (ht : Chosen r.tracks track t) (hm : D.make t = .ok s)
    (hr : results D s (r.packets.filter fun p => r.trackOf p == t.id) = cs.map Except.ok) (hne : cs ≠ []) (hcs : ∀ c ∈ cs, c.channels = n ∧ c.rate = rate) :
    ∃ w, decode D notFound (.ok r) track = some (.ok w) ∧ w.channels = n ∧ w.rate = rate ∧ (∀ k, k < n → w.vec[k]? = some (joined cs k)) ∧
      w.len = (if n = 0 then 0 else (cs.map Chunk.frames).sum) := by
  rw [decode_chosen D notFound r track t s hd ht hm]
  obtain ⟨ps', s', h1, h2, h3⟩ := readLoop_start D r.trackOf t.id r.stop n rate cs hne hcs (r.packets.filter fun p => r.trackOf p == t.id) s []
    (fun p hp => by simpa using (List.mem_filter.1 hp).2) (by simpa using hr)
  cases ps' with
  | cons p ps => simp [results] at h1
  | nil =>
    rw [h3]
    refine ⟨_, rfl, by simp [Wave.channels], rfl, fun k hk => ?_, rfl⟩
    rw [List.getElem?_map, List.getElem?_range hk]; rfl

/-- **C95, errors of the decoder.** If a packet of the chosen track cannot be decoded, loading fails with the error of the first such packet. -/
theorem C95_decode_error [Zero α] (D : Decoder α P E) (notFound : E) (r : Reader P E) (track : Option Nat) (t : Track) (s : D.σ) (cs : List (Chunk α)) (n : Nat) (rate : ℝ) (e : E) (rest : List (Except E (Chunk α)))
    (hd : DistinctIds r.tracks) (ht : Chosen r.tracks track t) (hm : D.make t = .ok s)
    (hr : results D s (r.packets.filter fun p => r.trackOf p == t.id) = cs.map Except.ok ++ .error e :: rest) (hcs : ∀ c ∈ cs, c.channels = n ∧ c.rate = rate) :
    decode D notFound (.ok r) track = some (.error e) := by
  rw [decode_chosen D notFound r track t s hd ht hm]
  have hps : ∀ p ∈ r.packets.filter fun p => r.trackOf p == t.id, r.trackOf p = t.id := fun p hp => by simpa using (List.mem_filter.1 hp).2
  have fin : ∀ (ps : List P) (s : D.σ) (w : Option (Wave α)), (∀ p ∈ ps, r.trackOf p = t.id) → results D s ps = .error e :: rest → readLoop D r.trackOf t.id r.stop ps s w = some (.error e) := by
    intro ps s w hp h
    cases ps with
    | nil => simp [results] at h
    | cons p ps =>
      simp only [results, List.cons.injEq] at h
      rw [readLoop_cons _ _ _ _ _ _ _ _ (hp p List.mem_cons_self), h.1]
  by_cases hne : cs = []
  · subst hne
    exact fin _ s none hps (by simpa using hr)
  · obtain ⟨ps', s', h1, h2, h3⟩ := readLoop_start D r.trackOf t.id r.stop n rate cs hne hcs _ s _ hps hr
    rw [h3]
    exact fin _ _ _ h2 h1

/-- **C95, other errors.** A file that is not recognised, without a known track, with an unsupported codec, or without packets of the chosen track cannot be loaded. -/
theorem C95_other_errors [Zero α] (D : Decoder α P E) (notFound : E) (track : Option Nat) :
    (∀ e, decode D notFound (.error e : Except E (Reader P E)) track = some (.error e)) ∧
    (∀ r : Reader P E, (∀ t ∈ r.tracks, t.known = false) → (track = none ∨ ∃ i, track = some i ∧ r.tracks.length ≤ i) → decode D notFound (.ok r) track = some (.error notFound)) ∧
    (∀ (r : Reader P E) t e, DistinctIds r.tracks → Chosen r.tracks track t → D.make t = .error e → decode D notFound (.ok r) track = some (.error e)) ∧
    (∀ (r : Reader P E) t s, DistinctIds r.tracks → Chosen r.tracks track t → D.make t = .ok s → (∀ p ∈ r.packets, r.trackOf p ≠ t.id) → decode D notFound (.ok r) track = some (.error r.stop)) := by
  refine ⟨fun e => rfl, fun r h hn => ?_, fun r t e hd ht hm => ?_, fun r t s hd ht hm hp => ?_⟩
  · have : selectTrack r.tracks track = none := by
      have hf : r.tracks.find? (·.known) = none := by
        rw [List.find?_eq_none]; intro t ht; simp [h t ht]
      unfold selectTrack
      rw [hf]
      rcases hn with rfl | ⟨i, rfl, hi⟩
      · rfl
      · simp only [Option.bind_some]
        rw [List.getElem?_eq_none hi]; rfl
    unfold decode
    simp only
    rw [this]
  · unfold decode
    simp only
    rw [chosen_select ht]
    simp only
    rw [find_id hd (chosen_mem ht)]
    simp only
    rw [hm]
  · rw [decode_chosen D notFound r track t s hd ht hm]
    have : (r.packets.filter fun p => r.trackOf p == t.id) = [] := by
      rw [List.filter_eq_nil_iff]; intro p hp'; simpa using hp p hp'
    rw [this]; rfl

/-- **C95, other tracks.** Files that agree in tracks and in the packets of the chosen track load alike, whatever the decoder makes of them. -/
theorem C95_other_tracks [Zero α] (D : Decoder α P E) (notFound : E) (r r' : Reader P E) (track : Option Nat) (t : Track) (s : D.σ)
    (hd : DistinctIds r.tracks) (ht : Chosen r.tracks track t) (hm : D.make t = .ok s)
    (h1 : r'.tracks = r.tracks) (h2 : r'.trackOf = r.trackOf) (h3 : r'.stop = r.stop)
    (h4 : (r'.packets.filter fun p => r.trackOf p == t.id) = r.packets.filter fun p => r.trackOf p == t.id) :
    decode D notFound (.ok r') track = decode D notFound (.ok r) track := by
  rw [decode_chosen D notFound r track t s hd ht hm, decode_chosen D notFound r' track t s (by rw [h1]; exact hd) (by rw [h1]; exact ht) hm, h2, h3, h4]

/-- **C95 fails for the number of the track.** When a track is asked for that does not exist, another one is loaded without notice: the first one with a known codec. -/
theorem C95_violation_track [Zero α] (D : Decoder α P E) (notFound : E) (r : Reader P E) (i : Nat) (hi : r.tracks.length ≤ i) :
    decode D notFound (.ok r) (some i) = decode D notFound (.ok r) none := by
  have : selectTrack r.tracks (some i) = selectTrack r.tracks none := by
    unfold selectTrack
    simp only [Option.bind_some]
    rw [List.getElem?_eq_none hi]; rfl
  unfold decode
  simp only
  rw [this]

/-- **C95 fails for errors of the reader.** When reading fails after a packet of the track (a broken or truncated file), loading succeeds with what came before, whatever the error. -/
theorem C95_violation_truncated [Zero α] (D : Decoder α P E) (notFound : E) (r : Reader P E) (track : Option Nat) (t : Track) (s : D.σ) (cs : List (Chunk α)) (n : Nat) (rate : ℝ) (broken : E)
    (hd : DistinctIds r.tracks) (ht : Chosen r.tracks track t) (hm : D.make t = .ok s)
    (hr : results D s (r.packets.filter fun p => r.trackOf p == t.id) = cs.map Except.ok) (hne : cs ≠ []) (hcs : ∀ c ∈ cs, c.channels = n ∧ c.rate = rate) :
    ∃ w, decode D notFound (.ok { r with stop := broken }) track = some (.ok w) :=
  let ⟨w, h, _⟩ := C95_load D notFound { r with stop := broken } track t s cs n rate hd ht hm hr hne hcs
  ⟨w, h⟩

/-! ## Changes of format within a track -/

/-- A decoder of packets that are decoded audio. -/
def raw : Decoder ℝ (Nat × Chunk ℝ) String where
  σ := Unit
  make _ := .ok ()
  decode _ p := ((), .ok p.2)

/-- A file with one track. -/
def file (cs : List (Chunk ℝ)) : Reader (Nat × Chunk ℝ) String := ⟨[⟨7, true, 0⟩], cs.map fun c => (7, c), Prod.fst, "end of stream"⟩

/-- **C95 fails when the format changes.** If a later packet has more channels than the first, loading panics; if it has fewer, the missing ones are silent; and the sample rate is that of the first packet. -/
theorem C95_violation_format (f : Nat → Nat → ℝ) :
    decode raw "not found" (.ok (file [⟨44100, 1, 1, f⟩, ⟨44100, 2, 1, f⟩])) none = none ∧
    decode raw "not found" (.ok (file [⟨44100, 2, 1, f⟩, ⟨48000, 1, 1, f⟩])) none = some (.ok ⟨[[f 0 0, f 0 0], [f 1 0, 0]], 44100, 2⟩) := by
  constructor
  · have h1 : addChunk (Wave.new 1 44100) (⟨44100, 1, 1, f⟩ : Chunk ℝ) = some ⟨[[f 0 0]], 44100, 1⟩ := by
      rw [new_tab 1 44100 (fun _ _ => 0), addChunk_tab (Nat.succ_pos _) (by simp)]; simp [tab]
    have h2 : addChunk (⟨[[f 0 0]], 44100, 1⟩ : Wave ℝ) (⟨44100, 2, 1, f⟩ : Chunk ℝ) = none := by
      simp [addChunk, forRange, Wave.push, Wave.set, Wave.channels, List.range']
    simp only [decode, file, selectTrack, raw, Option.bind_none, List.find?, List.map_cons, List.map_nil]
    simp only [readLoop, h1, Option.getD_none, Option.getD_some, Option.bind_some, h2]
    simp
  · have h1 : addChunk (Wave.new 2 44100) (⟨44100, 2, 1, f⟩ : Chunk ℝ) = some (tab 44100 2 1 f) := by
      rw [new_tab 2 44100 (fun _ _ => 0), addChunk_tab (Nat.succ_pos _) (by simp)]
      congr 1
    have h2 : addChunk (tab 44100 2 1 f) (⟨48000, 1, 1, f⟩ : Chunk ℝ) = some ⟨[[f 0 0, f 0 0], [f 1 0, 0]], 44100, 2⟩ := by
      rw [addChunk_tab (Nat.succ_pos _) (by simp)]; simp [tab, List.range_succ]
    simp [decode, file, selectTrack, raw, readLoop, h1, h2]

/-! ## A case meeting the hypotheses -/

/-- Two tracks whose packets alternate, the second one selected. -/
example : ∃ w, decode raw "not found" (.ok ⟨[⟨3, true, 0⟩, ⟨5, true, 0⟩], [(3, ⟨8000, 1, 1, fun _ _ => 9⟩), (5, ⟨44100, 1, 2, fun _ i => i⟩), (3, ⟨8000, 1, 1, fun _ _ => 9⟩), (5, ⟨44100, 1, 1, fun _ _ => 4⟩)],
    Prod.fst, "end"⟩) (some 1) = some (.ok w) ∧ w.rate = 44100 ∧ w.vec[0]? = some [0, 1, 4] := by
  obtain ⟨w, h, -, h2, h3, -⟩ := C95_load raw "not found" ⟨[⟨3, true, 0⟩, ⟨5, true, 0⟩], [(3, ⟨8000, 1, 1, fun _ _ => 9⟩), (5, ⟨44100, 1, 2, fun _ i => i⟩), (3, ⟨8000, 1, 1, fun _ _ => 9⟩), (5, ⟨44100, 1, 1, fun _ _ => 4⟩)],
    Prod.fst, "end"⟩ (some 1) ⟨5, true, 0⟩ () [⟨44100, 1, 2, fun _ i => i⟩, ⟨44100, 1, 1, fun _ _ => 4⟩] 1 44100 (by simp [DistinctIds]) (Or.inl ⟨1, rfl, rfl⟩) rfl rfl (by simp) (by simp)
  refine ⟨w, h, h2, ?_⟩
  rw [h3 0 (by decide)]
  simp [joined, List.range_succ]

end Fundsp.Wv
