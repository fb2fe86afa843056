import Verif.Wave.EditProps

/-!
# The wave player: property C56
-/

noncomputable section
namespace Fundsp.Wv

variable {α : Type}

/-- The position that is heard at sample `k`: from the start point to the end point once, then from the loop point to the end point for ever. `none` is silence. -/
def heard (start stop : Nat) (loop : Option Nat) (k : Nat) : Option Nat :=
  if k < stop - start then some (start + k)
  else if start < stop then loop.bind fun p => if p < stop then some (p + (k - (stop - start)) % (stop - p)) else none
  else none

/-- The index of the player after `k` samples. -/
def indexAt (start stop : Nat) (loop : Option Nat) (k : Nat) : Nat :=
  if start < stop then
    if k < stop - start then start + k
    else match loop with
      | none => stop
      | some p => if p < stop then p + (k - (stop - start)) % (stop - p) else p
  else start

theorem mod_succ (a n : Nat) (hn : 0 < n) : (a + 1) % n = if a % n + 1 = n then 0 else a % n + 1 := by
  have h := Nat.mod_lt a hn
  rw [Nat.add_mod]
  by_cases h1 : n = 1
  · subst h1; simp [Nat.mod_one]
  · rw [Nat.mod_eq_of_lt (show 1 < n by omega)]
    split
    · rename_i h2; rw [h2]; exact Nat.mod_self n
    · exact Nat.mod_eq_of_lt (by omega)

theorem tick_at [Zero α] {w : Wave α} (hw : w.Wf) {c start stop : Nat} (hc : c < w.channels) (hs : stop ≤ w.len) (loop : Option Nat) (k : Nat) :
    playerTick w ⟨c, indexAt start stop loop k, start, stop, loop⟩ =
      some (⟨c, indexAt start stop loop (k + 1), start, stop, loop⟩, (heard start stop loop k).elim 0 fun p => ((w.at? c p).getD 0)) := by
  have hsome : ∀ i, i < stop → ∃ x, w.at? c i = some x := by
    intro i hi
    have hc : c < w.vec.length := hc
    unfold Wave.at?
    rw [List.getElem?_eq_getElem hc]
    exact ⟨_, List.getElem?_eq_getElem (by rw [hw.1 _ (List.getElem_mem hc)]; omega)⟩
  have read : ∀ i j, i < stop → (if i + 1 = stop then loop.getD (i + 1) else i + 1) = j →
      playerTick w ⟨c, i, start, stop, loop⟩ = some (⟨c, j, start, stop, loop⟩, (w.at? c i).getD 0) := by
    intro i j hi hj
    obtain ⟨x, hx⟩ := hsome i hi
    unfold playerTick
    simp only
    rw [if_pos hi, hx, ← hj]; rfl
  have silent : ∀ i, ¬ i < stop → playerTick w ⟨c, i, start, stop, loop⟩ = some (⟨c, i, start, stop, loop⟩, 0) := by
    intro i hi
    unfold playerTick
    rw [if_neg hi]
  by_cases hss : start < stop
  · by_cases hk : k < stop - start
    · have e1 : indexAt start stop loop k = start + k := by unfold indexAt; rw [if_pos hss, if_pos hk]
      have e2 : heard start stop loop k = some (start + k) := if_pos hk
      rw [e1, e2]
      refine read _ _ (by omega) ?_
      unfold indexAt
      rw [if_pos hss]
      by_cases hl : start + k + 1 = stop
      · rw [if_pos hl, if_neg (by omega)]
        cases loop with
        | none => exact hl
        | some p =>
          simp only [Option.getD_some]
          split
          · rw [show k + 1 - (stop - start) = 0 by omega]; simp
          · rfl
      · rw [if_neg hl, if_pos (by omega)]; omega
    · have hk' : ¬ k + 1 < stop - start := by omega
      cases loop with
      | none =>
        have e1 : ∀ k, ¬ k < stop - start → indexAt start stop none k = stop := by intro k hk; unfold indexAt; rw [if_pos hss, if_neg hk]
        have e2 : heard start stop none k = none := by unfold heard; rw [if_neg hk, if_pos hss]; rfl
        rw [e1 _ hk, e1 _ hk', e2]
        exact silent _ (by omega)
      | some p =>
        by_cases hp : p < stop
        · have e1 : ∀ k, ¬ k < stop - start → indexAt start stop (some p) k = p + (k - (stop - start)) % (stop - p) := by
            intro k hk; unfold indexAt; rw [if_pos hss, if_neg hk]; exact if_pos hp
          have e2 : heard start stop (some p) k = some (p + (k - (stop - start)) % (stop - p)) := by
            unfold heard; rw [if_neg hk, if_pos hss]; exact if_pos hp
          rw [e1 _ hk, e1 _ hk', e2]
          have hm := Nat.mod_lt (k - (stop - start)) (show 0 < stop - p by omega)
          refine read _ _ (by omega) ?_
          rw [show k + 1 - (stop - start) = k - (stop - start) + 1 by omega, mod_succ _ _ (show 0 < stop - p by omega)]
          simp only [Option.getD_some]
          by_cases hl : (k - (stop - start)) % (stop - p) + 1 = stop - p
          · rw [if_pos hl, if_pos (by omega)]; rfl
          · rw [if_neg hl, if_neg (by omega)]; omega
        · have e1 : ∀ k, ¬ k < stop - start → indexAt start stop (some p) k = p := by
            intro k hk; unfold indexAt; rw [if_pos hss, if_neg hk]; exact if_neg hp
          have e2 : heard start stop (some p) k = none := by
            unfold heard; rw [if_neg hk, if_pos hss]; exact if_neg hp
          rw [e1 _ hk, e1 _ hk', e2]
          exact silent _ hp
  · have e1 : ∀ k, indexAt start stop loop k = start := by intro k; unfold indexAt; rw [if_neg hss]
    have e2 : heard start stop loop k = none := by unfold heard; rw [if_neg (by omega), if_neg hss]
    rw [e1, e1, e2]
    exact silent _ hss

/-- **C56, construction.** A player is made exactly for existing channels and end points inside the wave. -/
theorem C56_new (w : Wave α) (channel start stop : Nat) (loop : Option Nat) :
    (∃ s, newPlayer w channel start stop loop = some s) ↔ (channel < w.channels ∧ stop ≤ w.len) := by
  unfold newPlayer
  by_cases h : channel < w.channels ∧ stop ≤ w.len
  · rw [if_pos h]; exact ⟨fun _ => h, fun _ => ⟨_, rfl⟩⟩
  · rw [if_neg h]; exact ⟨fun ⟨_, h'⟩ => (by cases h'), fun h' => absurd h' h⟩

theorem run_at [Zero α] {w : Wave α} (hw : w.Wf) {c start stop : Nat} (hc : c < w.channels) (hs : stop ≤ w.len) (loop : Option Nat) (k : Nat) :
    playerRun w k ⟨c, start, start, stop, loop⟩ =
      some (⟨c, indexAt start stop loop k, start, stop, loop⟩, (List.range k).map fun j => (heard start stop loop j).elim 0 fun p => ((w.at? c p).getD 0)) := by
  induction k with
  | zero =>
    have : indexAt start stop loop 0 = start := by
      unfold indexAt
      by_cases h : start < stop
      · rw [if_pos h, if_pos (by omega)]; rfl
      · rw [if_neg h]
    rw [this]; rfl
  | succ k ih =>
    show (playerRun w k _).bind _ = _
    rw [ih]
    simp only [Option.bind_some, tick_at hw hc hs loop k, Option.map_some, List.range_succ, List.map_append, List.map_cons, List.map_nil]

/-- **C56.** For every wave, start point, end point, loop point and number of samples, the player outputs the samples at the heard positions of the channel, and silence
where nothing is heard. It does not fail, and every position it reads is inside the wave. -/
theorem C56_plays [Zero α] {w : Wave α} (hw : w.Wf) {channel start stop : Nat} {loop : Option Nat} {s : PlayerSt} (h : newPlayer w channel start stop loop = some s) (k : Nat) :
    ∃ s' out, playerRun w k s = some (s', out) ∧ out.length = k ∧
      ∀ j, j < k → match heard start stop loop j with
        | some p => p < w.len ∧ out[j]? = w.at? channel p ∧ (w.at? channel p).isSome
        | none => out[j]? = some 0 := by
  have hwf : w.Wf := hw
  obtain ⟨hc, hs⟩ := (C56_new w channel start stop loop).1 ⟨s, h⟩
  have hsv : s = ⟨channel, start, start, stop, loop⟩ := by
    unfold newPlayer at h; rw [if_pos ⟨hc, hs⟩] at h; exact (Option.some.inj h).symm
  subst hsv
  refine ⟨_, _, run_at hwf hc hs loop k, by simp, fun j hj => ?_⟩
  have hout : ((List.range k).map fun j => (heard start stop loop j).elim 0 fun p => ((w.at? channel p).getD 0))[j]? = some ((heard start stop loop j).elim 0 fun p => ((w.at? channel p).getD 0)) := by
    rw [List.getElem?_map, List.getElem?_range hj]; rfl
  rw [hout]
  have hlt : ∀ p, heard start stop loop j = some p → p < stop := by
    intro p hp
    unfold heard at hp
    split at hp
    · cases hp; omega
    · split at hp
      · cases loop with
        | none => cases hp
        | some q =>
          simp only [Option.bind_some] at hp
          split at hp
          · cases hp
            have := Nat.mod_lt (j - (stop - start)) (show 0 < stop - q by omega)
            omega
          · cases hp
      · cases hp
  cases hh : heard start stop loop j with
  | none => rfl
  | some p =>
    have hp := hlt p hh
    have hc' : channel < w.vec.length := hc
    have hx : w.at? channel p = some ((w.vec[channel])[p]'(by rw [hwf.1 _ (List.getElem_mem hc')]; omega)) := by
      unfold Wave.at?
      rw [List.getElem?_eq_getElem hc']
      exact List.getElem?_eq_getElem _
    refine ⟨by omega, ?_, ?_⟩
    · simp only [Option.elim_some]; rw [hx]; rfl
    · rw [hx]; rfl

/-- **C56, reset.** After any number of samples, resetting brings back the new player. -/
theorem C56_reset [Zero α] {w : Wave α} (hw : w.Wf) {channel start stop : Nat} {loop : Option Nat} {s : PlayerSt} (h : newPlayer w channel start stop loop = some s) (k : Nat)
    {s' : PlayerSt} {out : List α} (hr : playerRun w k s = some (s', out)) : playerReset s' = s := by
  obtain ⟨hc, hs⟩ := (C56_new w channel start stop loop).1 ⟨s, h⟩
  have hsv : s = ⟨channel, start, start, stop, loop⟩ := by
    unfold newPlayer at h; rw [if_pos ⟨hc, hs⟩] at h; exact (Option.some.inj h).symm
  subst hsv
  rw [run_at hw hc hs loop k] at hr
  cases hr
  rfl

/-- Four samples, from the second to the end, looping the last two. -/
example : heard 1 4 (some 2) 0 = some 1 ∧ heard 1 4 (some 2) 3 = some 2 ∧ heard 1 4 (some 2) 6 = some 3 ∧ heard 1 4 none 3 = none := by decide

example : (Wave.fromSamples 44100 [1, 2, 3, 4] : Wave ℚ).Wf ∧ ∃ s, newPlayer (Wave.fromSamples 44100 [1, 2, 3, 4] : Wave ℚ) 0 1 4 (some 2) = some s :=
  ⟨C57_consistent (.fromSamples _ _), (C56_new _ _ _ _ _).2 (by decide)⟩

end Fundsp.Wv
