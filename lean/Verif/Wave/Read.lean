import Verif.Wave.Lemmas

/-!
# Loading audio files: model

Model of `Wave::decode` (`/repo/src/read.rs`). The file format reader and the decoder are those of Symphonia and enter as an arbitrary list of tracks, an arbitrary list of
packets followed by an error (the end of a file is an error too), and an arbitrary decoder with state. Conversion of samples to single precision is part of the decoder here. A panic is `none`.
-/

noncomputable section
namespace Fundsp.Wv

/-- A track: its id and whether its codec is known (`codec_params.codec != CODEC_TYPE_NULL`). `params` stands for the remaining codec parameters. -/
structure Track where
  id : Nat
  known : Bool
  params : Nat

/-- Decoded audio of a packet: `spec()` and the samples of each channel, `read.rs:118-160`. -/
structure Chunk (α : Type) where
  rate : ℝ
  channels : Nat
  frames : Nat
  chan : Nat → Nat → α

/-- A decoder: `make` at `read.rs:100-101`, `decode` at `read.rs:120`. -/
structure Decoder (α P E : Type) where
  σ : Type
  make : Track → Except E σ
  decode : σ → P → σ × Except E (Chunk α)

/-- What the format reader provides: `read.rs:79-81`. `trackOf` is `packet.track_id()`; `stop` is the error of `next_packet` after the last packet. -/
structure Reader (P E : Type) where
  tracks : List Track
  packets : List P
  trackOf : P → Nat
  stop : E

variable {α P E : Type}

/-- Adding decoded audio to the wave: `read.rs:163-179`. -/
def addChunk [Zero α] (w : Wave α) (c : Chunk α) : Option (Wave α) :=
  forRange 0 c.channels (fun channel w =>
    (if channel = 0 then forRange 0 c.frames (fun _ w => w.push [0]) w else some w).bind fun w =>
      forRange 0 c.frames (fun i w => if c.frames ≤ w.len then w.set channel (w.len - c.frames + i) (c.chan channel i) else none) w) w

/-- The loop over packets: `read.rs:103-193`. `wave` is the wave made so far. -/
def readLoop [Zero α] (D : Decoder α P E) (trackOf : P → Nat) (id : Nat) (stop : E) : List P → D.σ → Option (Wave α) → Option (Except E (Wave α))
  | [], _, some w => some (.ok w)
  | [], _, none => some (.error stop)
  | p :: ps, s, wave =>
    if trackOf p ≠ id then readLoop D trackOf id stop ps s wave
    else
      match D.decode s p with
      | (_, .error e) => some (.error e)
      | (s, .ok c) => (addChunk (wave.getD (Wave.new c.channels c.rate)) c).bind fun w => readLoop D trackOf id stop ps s (some w)

/-- The track selected: `read.rs:84-89`. -/
def selectTrack (tracks : List Track) (track : Option Nat) : Option Track :=
  (track.bind fun t => tracks[t]?) <|> tracks.find? (·.known)

/-- `Wave::decode`: `read.rs:65-197`. `notFound` is the error "Could not find track." -/
def decode [Zero α] (D : Decoder α P E) (notFound : E) (source : Except E (Reader P E)) (track : Option Nat) : Option (Except E (Wave α)) :=
  match source with
  | .error e => some (.error e)
  | .ok r =>
    match selectTrack r.tracks track with
    | none => some (.error notFound)
    | some t =>
      match r.tracks.find? (·.id == t.id) with
      | none => some (.error notFound)
      | some t' =>
        match D.make t' with
        | .error e => some (.error e)
        | .ok s => readLoop D r.trackOf t.id r.stop r.packets s none

/-! ## Lemmas -/

theorem tab_push [Zero α] {rate : ℝ} {n len : Nat} (hn : 0 < n) (f : Nat → Nat → α) :
    (tab rate n len f).push [0] = some (tab rate n (len + 1) (fun c i => if i < len then f c i else 0)) := by
  unfold Wave.push
  rw [dif_pos (by rfl)]
  congr 1
  rw [tab_channels, if_pos hn]
  unfold tab
  congr 1
  simp only [List.map_map]
  apply List.map_congr_left
  intro c _
  simp only [Function.comp]
  rw [List.range_succ, List.map_append]
  congr 1
  · apply List.map_congr_left
    intro i hi
    rw [if_pos (List.mem_range.1 hi)]
  · simp

/-- Adding audio to a wave with at least as many channels. -/
theorem addChunk_tab [Zero α] {rate : ℝ} {n len : Nat} {f : Nat → Nat → α} {c : Chunk α} (hc : 0 < c.channels) (hn : c.channels ≤ n) :
    addChunk (tab rate n len f) c =
      some (tab rate n (len + c.frames) (fun k i => if i < len then f k i else if k < c.channels then c.chan k (i - len) else 0)) := by
  unfold addChunk
  have step : ∀ k, 0 ≤ k → k < c.channels → ∀ w, (if k = 0 then w = tab rate n len f else
      w = tab rate n (len + c.frames) (fun k' i => if i < len then f k' i else if k' < k then c.chan k' (i - len) else 0)) →
      ∃ y, ((if k = 0 then forRange 0 c.frames (fun _ w => Wave.push w [0]) w else some w).bind fun w =>
        forRange 0 c.frames (fun i w => if c.frames ≤ w.len then Wave.set w k (w.len - c.frames + i) (c.chan k i) else none) w) = some y ∧
      (if k + 1 = 0 then y = tab rate n len f else
      y = tab rate n (len + c.frames) (fun k' i => if i < len then f k' i else if k' < k + 1 then c.chan k' (i - len) else 0)) := by
    intro k _ hk w hw
    -- after the zeros
    have hz : (if k = 0 then forRange 0 c.frames (fun _ w => Wave.push w [0]) w else some w) =
        some (tab rate n (len + c.frames) (fun k' i => if i < len then f k' i else if k' < k then c.chan k' (i - len) else 0)) := by
      by_cases h0 : k = 0
      · subst h0
        rw [if_pos rfl]
        rw [if_pos rfl] at hw
        subst hw
        obtain ⟨z, hz, hI⟩ := forRange_spec (a := 0) (b := c.frames) (f := fun _ (w : Wave α) => w.push [0])
          (I := fun j w => w = tab rate n (len + j) (fun k' i => if i < len then f k' i else 0)) (x := tab rate n len f)
          (by
            intro j _ _ w hw
            subst hw
            refine ⟨_, tab_push (by omega) _, ?_⟩
            rw [Nat.add_assoc]
            apply tab_congr
            intro k' i _ _
            by_cases h : i < len
            · rw [if_pos (by omega)]
            · rw [if_neg h, ite_self])
          (Nat.zero_le _)
          (by
            apply tab_congr
            intro k' i _ hi
            rw [if_pos hi])
        rw [hz, hI]
        simp
      · rw [if_neg h0]
        rw [if_neg h0] at hw
        rw [hw]
    rw [hz]
    simp only [Option.bind_some]
    obtain ⟨z, hz, hI⟩ := forRange_spec (a := 0) (b := c.frames)
      (f := fun i (w : Wave α) => if c.frames ≤ w.len then w.set k (w.len - c.frames + i) (c.chan k i) else none)
      (I := fun j w => w = tab rate n (len + c.frames) (fun k' i => if i < len then f k' i else if k' < k ∨ (k' = k ∧ i - len < j) then c.chan k' (i - len) else 0))
      (x := tab rate n (len + c.frames) (fun k' i => if i < len then f k' i else if k' < k then c.chan k' (i - len) else 0))
      (by
        intro j _ hj w hw
        subst hw
        rw [if_pos (by simp [tab])]
        refine ⟨_, ?_, rfl⟩
        have e : (tab rate n (len + c.frames) fun k' i => if i < len then f k' i else if k' < k ∨ k' = k ∧ i - len < j then c.chan k' (i - len) else 0).len - c.frames + j = len + j := by
          simp [tab]
        rw [e, tab_set (by omega) (by omega)]
        congr 1
        apply tab_congr
        intro k' i _ _
        by_cases h1 : k' = k ∧ i = len + j
        · obtain ⟨rfl, rfl⟩ := h1
          rw [if_pos ⟨rfl, rfl⟩, if_neg (by omega), if_pos (Or.inr ⟨rfl, by omega⟩)]
          congr 1; omega
        · rw [if_neg h1]
          by_cases h2 : i < len
          · rw [if_pos h2, if_pos h2]
          · rw [if_neg h2, if_neg h2]
            have : (k' < k ∨ k' = k ∧ i - len < j) ↔ (k' < k ∨ k' = k ∧ i - len < j + 1) := by
              constructor
              · rintro (h | h)
                · exact Or.inl h
                · exact Or.inr ⟨h.1, by omega⟩
              · rintro (h | h)
                · exact Or.inl h
                · refine Or.inr ⟨h.1, ?_⟩
                  by_contra h3
                  exact h1 ⟨h.1, by omega⟩
            simp only [this])
      (Nat.zero_le _)
      (by
        apply tab_congr
        intro k' i _ _
        simp)
    refine ⟨z, hz, ?_⟩
    rw [if_neg (by omega), hI]
    apply tab_congr
    intro k' i _ hi
    by_cases h2 : i < len
    · rw [if_pos h2, if_pos h2]
    · rw [if_neg h2, if_neg h2]
      have : (k' < k ∨ k' = k ∧ i - len < c.frames) ↔ k' < k + 1 := by omega
      simp only [this]
  obtain ⟨y, hy, hI⟩ := forRange_spec (a := 0) (b := c.channels) (I := (fun k w => if k = 0 then w = tab rate n len f else
      w = tab rate n (len + c.frames) (fun k' i => if i < len then f k' i else if k' < k then c.chan k' (i - len) else 0))) (f := (fun channel w =>
    (if channel = 0 then forRange 0 c.frames (fun _ w => w.push [0]) w else some w).bind fun w =>
      forRange 0 c.frames (fun i w => if c.frames ≤ w.len then w.set channel (w.len - c.frames + i) (c.chan channel i) else none) w)) step (Nat.zero_le _) (x := tab rate n len f) (by simp)
  rw [if_neg (by omega)] at hI
  rw [hy, hI]

theorem addChunk_none [Zero α] (w : Wave α) {c : Chunk α} (hc : c.channels = 0) : addChunk w c = some w := by
  unfold addChunk; rw [hc]; exact forRange_none (Nat.le_refl _) _ _

theorem new_tab (n : Nat) (rate : ℝ) (f : Nat → Nat → α) : Wave.new n rate = tab rate n 0 f := by
  unfold Wave.new tab
  congr 1
  simp only [List.range_zero, List.map_nil, List.map_const', List.length_range]

end Fundsp.Wv
