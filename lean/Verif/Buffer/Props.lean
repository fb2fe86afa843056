import Verif.Buffer.Model

/-! C18: buffers are arrays of independent samples addressed by (channel, index). -/

namespace Fundsp.Buffer

variable {α : Type}

/-- A buffer with `n` channels. -/
def Has (b : Slice α) (n : Nat) : Prop := b.length = 8 * n

theorem shl3 (n : Nat) : n <<< 3 = 8 * n := by rw [Nat.shiftLeft_eq]; omega
theorem shr3 (n : Nat) : n >>> 3 = n / 8 := by rw [Nat.shiftRight_eq_div_pow]
theorem and7 (n : Nat) : n &&& 7 = n % 8 := Nat.and_two_pow_sub_one_eq_mod n 3

theorem idx_lt {n c i : Nat} (hc : c < n) (hi : i < 64) : c <<< 3 + i >>> 3 < 8 * n := by rw [shl3, shr3]; omega

theorem atF32_some {b : Slice α} {n c i : Nat} (h : Has b n) (hc : c < n) (hi : i < 64) : (atF32 b c i).isSome := by
  have hl := idx_lt hc hi
  rw [← h] at hl
  simp [atF32, List.getElem?_eq_getElem hl]

/-- **C18** a buffer made for `n` channels has `n` channels, all zero, and every sample `(c, i)`, `c < n`, `i < 64` exists. -/
theorem C18_new (zero : α) (n : Nat) : channels (new zero n) = n ∧ Has (new zero n) n ∧
    ∀ c i, c < n → i < 64 → atF32 (new zero n) c i = some zero := by
  refine ⟨by simp [channels, new, shl3, shr3], by simp [Has, new, shl3], ?_⟩
  intro c i hc hi
  have := idx_lt hc hi
  simp [atF32, new, shl3 n, List.getElem?_replicate, this]

/-- **C18** scalar writes: the written sample reads back, every other sample is unchanged, no panic. -/
theorem C18_scalar {b : Slice α} {n c i : Nat} (h : Has b n) (hc : c < n) (hi : i < 64) (v : α) :
    ∃ b', setF32 b c i v = some b' ∧ Has b' n ∧
      ∀ c' i', c' < n → i' < 64 → atF32 b' c' i' = if c' = c ∧ i' = i then some v else atF32 b c' i' := by
  have hl := idx_lt hc hi
  rw [← h] at hl
  refine ⟨_, by simp only [setF32, List.getElem?_eq_getElem hl, Option.map_some]; rfl, by simpa [Has] using h, ?_⟩
  intro c' i' hc' hi'
  simp only [atF32, List.getElem?_set]
  by_cases he : c <<< 3 + i >>> 3 = c' <<< 3 + i' >>> 3
  · rw [if_pos he, if_pos hl, Option.map_some]
    rw [shl3, shl3, shr3, shr3] at he
    by_cases hm : i' &&& 7 = i &&& 7
    · have : c' = c ∧ i' = i := by rw [and7, and7] at hm; omega
      simp only [if_pos hm, if_pos this]
    · have hn : ¬ (c' = c ∧ i' = i) := by rintro ⟨_, rfl⟩; exact hm rfl
      simp only [if_neg hm, if_neg hn]
      have he' : c' <<< 3 + i' >>> 3 = c <<< 3 + i >>> 3 := by rw [shl3, shl3, shr3, shr3]; omega
      simp only [he', List.getElem?_eq_getElem hl, Option.map_some]
  · rw [if_neg he]
    have hn : ¬ (c' = c ∧ i' = i) := by rintro ⟨rfl, rfl⟩; exact he rfl
    rw [if_neg hn]

/-- **C18** SIMD reads: lane `l` of item `i` of channel `c` is the scalar sample `8 i + l`. -/
theorem C18_simd_read {b : Slice α} {n c i : Nat} (h : Has b n) (hc : c < n) (hi : i < 8) :
    ∃ v, at' b c i = some v ∧ ∀ l : Fin 8, atF32 b c (8 * i + l) = some (v l) := by
  have hl : c <<< 3 + i < b.length := by rw [h, shl3]; omega
  refine ⟨_, List.getElem?_eq_getElem hl, ?_⟩
  intro l
  have e1 : (8 * i + l.val) >>> 3 = i := by rw [shr3]; omega
  have e2 : (8 * i + l.val) &&& 7 = l.val := by rw [and7]; omega
  simp only [atF32, e1, List.getElem?_eq_getElem hl, Option.map_some, e2]

/-- **C18** SIMD writes change exactly the eight samples of the item. -/
theorem C18_simd_write {b : Slice α} {n c i : Nat} (h : Has b n) (hc : c < n) (hi : i < 8) (v : Item α) :
    ∃ b', set b c i v = some b' ∧ Has b' n ∧
      ∀ c' i', c' < n → i' < 64 → atF32 b' c' i' =
        if c' = c ∧ i' / 8 = i then some (v ⟨i' % 8, Nat.mod_lt _ (by decide)⟩) else atF32 b c' i' := by
  have hl : c <<< 3 + i < b.length := by rw [h, shl3]; omega
  refine ⟨_, by simp only [set, hl, if_true]; rfl, by simpa [Has] using h, ?_⟩
  intro c' i' hc' hi'
  simp only [atF32, List.getElem?_set]
  by_cases he : c <<< 3 + i = c' <<< 3 + i' >>> 3
  · rw [if_pos he, if_pos hl]
    rw [shl3, shl3, shr3] at he
    rw [if_pos (by omega)]
    simp only [Option.map_some, and7]
  · rw [if_neg he, if_neg (by rintro ⟨rfl, rfl⟩; rw [shr3] at he; exact he rfl)]

theorem flatMap_ofFn_get (s : Slice α) : ∀ k, (s.flatMap (fun x => List.ofFn x))[k]? =
    (s[k / 8]?).map (fun x => x ⟨k % 8, Nat.mod_lt _ (by decide)⟩) := by
  induction s with
  | nil => intro k; simp
  | cons x s ih =>
    intro k
    rw [List.flatMap_cons, List.getElem?_append]
    by_cases hk : k < 8
    · rw [if_pos (by simpa using hk), List.getElem?_eq_getElem (by simpa using hk)]
      have h1 : k / 8 = 0 := by omega
      have h2 : k % 8 = k := by omega
      simp only [h1, List.getElem?_cons_zero, Option.map_some, List.getElem_ofFn, h2]
    · rw [if_neg (by simpa using hk), ih]
      obtain ⟨d, rfl⟩ : ∃ d, k = d + 8 := ⟨k - 8, by omega⟩
      have h1 : (d + 8) / 8 = d / 8 + 1 := by omega
      have h2 : (d + 8) % 8 = d % 8 := by omega
      simp only [List.length_ofFn, Nat.add_sub_cancel, h1, List.getElem?_cons_succ, h2]

theorem range_get {b s : Slice α} {lo hi : Nat} (h : range b lo hi = some s) (k : Nat) :
    s[k]? = if k < hi - lo then b[lo + k]? else none := by
  simp only [range] at h
  split at h
  · cases h
    rw [List.getElem?_take]
    split
    · rw [List.getElem?_drop]
    · rfl
  · cases h

/-- **C18** the scalar view of a channel has 64 samples, sample `i` being `(c, i)`. -/
theorem C18_channel {b : Slice α} {n c : Nat} (h : Has b n) (hc : c < n) :
    ∃ l, channelF32 b c = some l ∧ l.length = 64 ∧ ∀ i, i < 64 → l[i]? = atF32 b c i := by
  have hr : c <<< 3 ≤ (c + 1) <<< 3 ∧ (c + 1) <<< 3 ≤ b.length := by rw [h, shl3, shl3]; omega
  have hs : channel b c = some ((b.drop (c <<< 3)).take ((c + 1) <<< 3 - c <<< 3)) := by simp only [channel, range]; rw [if_pos hr]
  refine ⟨_, by simp only [channelF32, hs, Option.map_some]; rfl, ?_, ?_⟩
  · have : ∀ s : Slice α, (s.flatMap (fun x => List.ofFn x)).length = 8 * s.length := by
      intro s; induction s with
      | nil => rfl
      | cons x s ih => simp only [List.flatMap_cons, List.length_append, List.length_ofFn, ih, List.length_cons]; omega
    rw [this, List.length_take, List.length_drop, h, shl3, shl3]
    omega
  · intro i hi
    rw [flatMap_ofFn_get, range_get hs, if_pos (by rw [shl3, shl3]; omega)]
    simp only [atF32, shr3, and7]

/-- **C18** `subset(first, m)` has `m` channels and its channel `c` is channel `first + c` of the buffer; writing through it changes
exactly those channels. -/
theorem C18_subset {b : Slice α} {n first m : Nat} (h : Has b n) (hm : first + m ≤ n) :
    ∃ s, subset b first m = some s ∧ Has s m ∧ channels s = m ∧
      (∀ c i, c < m → i < 64 → atF32 s c i = atF32 b (first + c) i) ∧
      ∀ s', Has s' m → Has (putSubset b first m s') n ∧
        ∀ c i, c < n → i < 64 → atF32 (putSubset b first m s') c i =
          if first ≤ c ∧ c < first + m then atF32 s' (c - first) i else atF32 b c i := by
  have hr : first <<< 3 ≤ (first + m) <<< 3 ∧ (first + m) <<< 3 ≤ b.length := by rw [h, shl3, shl3]; omega
  have hs : subset b first m = some ((b.drop (first <<< 3)).take ((first + m) <<< 3 - first <<< 3)) := by
    simp only [subset, range]; rw [if_pos hr]
  have hlen : ((b.drop (first <<< 3)).take ((first + m) <<< 3 - first <<< 3)).length = 8 * m := by
    rw [List.length_take, List.length_drop, h, shl3, shl3]; omega
  refine ⟨_, hs, hlen, by rw [channels, hlen, shr3]; omega, ?_, ?_⟩
  · intro c i hc hi
    simp only [atF32]
    rw [range_get hs, if_pos (by rw [shl3, shl3, shl3, shr3]; omega)]
    have e : first <<< 3 + (c <<< 3 + i >>> 3) = (first + c) <<< 3 + i >>> 3 := by rw [shl3, shl3, shl3]; omega
    rw [e]
  · intro s' hs'
    have hl1 : (b.take (first <<< 3)).length = 8 * first := by rw [List.length_take, h, shl3]; omega
    have hs'' : s'.length = 8 * m := hs'
    refine ⟨?_, ?_⟩
    · rw [Has, putSubset, List.length_append, List.length_append, hl1, hs'', List.length_drop, h, shl3]; omega
    · intro c i hc hi
      simp only [atF32, putSubset, List.append_assoc]
      rw [List.getElem?_append, hl1]
      by_cases h1 : c < first
      · rw [if_pos (by rw [shl3, shr3]; omega), if_neg (by omega), List.getElem?_take, if_pos (by rw [shl3, shl3, shr3]; omega)]
      · rw [if_neg (by rw [shl3, shr3]; omega), List.getElem?_append, hs'']
        by_cases h2 : c < first + m
        · rw [if_pos (by rw [shl3, shr3]; omega), if_pos (by omega)]
          have e : c <<< 3 + i >>> 3 - 8 * first = (c - first) <<< 3 + i >>> 3 := by rw [shl3, shl3]; omega
          rw [e]
        · rw [if_neg (by rw [shl3, shr3]; omega), if_neg (by omega), List.getElem?_drop]
          have e : (first + m) <<< 3 + (c <<< 3 + i >>> 3 - 8 * first - 8 * m) = c <<< 3 + i >>> 3 := by rw [shl3, shl3]; omega
          rw [e]

/-- **C18** `resize` gives the requested number of channels, keeps the common channels and zeroes new ones; `clear` zeroes all. -/
theorem C18_resize (zero : α) {b : Slice α} {n : Nat} (h : Has b n) (m : Nat) : Has (resize zero b m) m ∧
    (∀ c i, c < m → i < 64 → atF32 (resize zero b m) c i = if c < n then atF32 b c i else some zero) ∧
    Has (clear zero b) n ∧ ∀ c i, c < n → i < 64 → atF32 (clear zero b) c i = some zero := by
  have hb : b.length = 8 * n := h
  refine ⟨?_, ?_, by simpa [Has, clear] using h, ?_⟩
  · rw [Has, resize, List.length_append, List.length_take, List.length_replicate, shl3]; omega
  · intro c i hc hi
    simp only [atF32, resize]
    rw [List.getElem?_append, List.length_take, shl3 m, hb]
    by_cases hcn : c < n
    · rw [if_pos hcn, if_pos (by rw [shl3, shr3]; omega), List.getElem?_take, if_pos (by rw [shl3, shr3]; omega)]
    · rw [if_neg hcn, if_neg (by rw [shl3, shr3]; omega), List.getElem?_replicate, if_pos (by rw [shl3, shr3]; omega)]
      rfl
  · intro c i hc hi
    have hl := idx_lt hc hi
    rw [← hb] at hl
    simp [atF32, clear, List.getElem?_eq_getElem hl]

/-- **C18** item counts: full items lie within the block, `simd_items` items cover it with less than one item to spare. -/
theorem C18_items (size : Nat) : 8 * fullSimdItems size ≤ size ∧ size < 8 * fullSimdItems size + 8 ∧
    size ≤ 8 * simdItems size ∧ 8 * simdItems size < size + 8 ∧ (size ≤ 64 → simdItems size ≤ 8) := by
  simp only [fullSimdItems, simdItems, shr3]; omega

example : ∃ b' : Slice Int, setF32 (new 0 3) 1 13 7 = some b' ∧ atF32 b' 1 13 = some 7 ∧ atF32 b' 1 12 = some 0 ∧ atF32 b' 2 13 = some 0 :=
  ⟨_, rfl, rfl, rfl, rfl⟩

end Fundsp.Buffer
