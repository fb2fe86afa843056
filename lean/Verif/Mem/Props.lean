import Verif.Mem.Lemmas

/-! Property C113: after `allocate`, a unit plays without asking for memory. -/

namespace Fundsp.Mem

/-- Specification: whatever is called on the audio thread, the unit does not ask for memory. -/
def Silent (g : Grow) (t : Tree) : Prop := ∀ l : List Call, (t.calls g l).asked = t.asked

theorem silent_iff (g : Grow) (t : Tree) (hs : t.Sane) : Silent g t ↔ t.Settled := by
  constructor
  · intro h
    by_contra hc
    obtain ⟨N, hN⟩ := play_asks g t hs hc
    have h1 := hN N false le_rfl
    have h2 : (t.reset.playAfter g (fun _ n => n) false N).asked = t.asked := h [.reset, .play N fun _ n => n]
    omega
  · exact fun h l => (calls_quiet g l t h).1

theorem reserve_len (g : Grow) (v : VecMem) (n : Nat) : (v.reserve g n).len = v.len := by
  unfold VecMem.reserve
  split <;> rfl

theorem allocate_sane (g : Grow) : ∀ (t : Tree) (h : Bool), t.Sane → (t.allocateAfter g h).Sane
  | .plain, _, h => h
  | .limiter sr look b, _, h => by
    show VecMem.len _ ≤ VecMem.cap _
    have h' : b.len ≤ b.cap := h
    split
    · rw [reserve_len]
      have := reserve_enough g b (limLen sr look - b.cap)
      omega
    · exact h'
  | .pluck sr f init l, c, h => by
    unfold Tree.allocateAfter
    split
    · exact h
    · have := resize_ok g l (lineLen sr f) h.1
      exact ⟨by omega, fun _ => this.2⟩
  | .one k x, c, h => by
    have h1 := allocate_sane g x c h
    have h2 : Tree.Sane (if c then x.hash else x) := by
      split
      · exact hash_sane x h
      · exact h
    cases k <;> first | exact h1 | exact h2
  | .two k x y, c, h => by
    have h1 := allocate_sane g x c h.1
    have h2 := allocate_sane g y c h.2
    have h3 : Tree.Sane (if c then y.hash else y) := by
      split
      · exact hash_sane y h.2
      · exact h.2
    cases k <;> first | exact ⟨h1, h2⟩ | exact ⟨h1, h3⟩
  | .many _ _ x, c, h => fun i => allocate_sane g (x i) c (h i)
  | .net o _ _ x, c, h => fun i => allocate_sane g (x i) (c || !o) (h i)

theorem sane_allocate (g : Grow) (t : Tree) (h : t.Sane) : (t.allocate g).Sane := allocate_sane g t false h

/-- Units on which `allocate` is called as intended: limiters have not been played yet, or only with their present rate and until their buffer was
full, and there are no `feedback2` and no setting listeners. -/
def Tree.Fresh : Tree → Prop
  | .plain => True
  | .limiter sr look b => b.len = b.cap ∨ limLen sr look ≤ b.cap
  | .pluck _ _ _ _ => True
  | .one k x => k ≠ .listen ∧ x.Fresh
  | .two k x y => k ≠ .feedback2 ∧ x.Fresh ∧ y.Fresh
  | .many _ _ x => ∀ i, (x i).Fresh
  | .net _ _ _ x => ∀ i, (x i).Fresh

theorem allocate_settles (g : Grow) : ∀ (t : Tree) (h : Bool), t.Sane → t.Fresh → (t.allocateAfter g h).Settled
  | .plain, _, _, _ => trivial
  | .limiter sr look b, _, _, hf => by
    show _ ≤ VecMem.cap _
    have hf' : b.len = b.cap ∨ limLen sr look ≤ b.cap := hf
    split
    · have := reserve_enough g b (limLen sr look - b.cap)
      omega
    · omega
  | .pluck sr f init l, c, hs, _ => by
    unfold Tree.allocateAfter
    split
    · rename_i hi
      have hs2 := hs.2 (by revert hi; cases init <;> simp)
      have hs1 := hs.1
      show _ ≤ _
      omega
    · exact (resize_ok g l (lineLen sr f) hs.1).1
  | .one k x, c, hs, hf => by
    have h1 := allocate_settles g x c hs hf.2
    cases k <;> first | exact h1 | exact absurd rfl hf.1
  | .two k x y, c, hs, hf => by
    have h1 := allocate_settles g x c hs.1 hf.2.1
    have h2 := allocate_settles g y c hs.2 hf.2.2
    cases k <;> first | exact ⟨h1, h2⟩ | exact absurd rfl hf.1
  | .many _ _ x, c, hs, hf => fun i => allocate_settles g (x i) c (hs i) (hf i)
  | .net o _ _ x, c, hs, hf => ⟨rfl, fun i => allocate_settles g (x i) (c || !o) (hs i) (hf i)⟩

/-- C113: after `allocate`, no sequence of playing, resets and hashes asks for memory, for every unit made of any nodes, nets and combinators but
`feedback2` and setting listeners, whatever the growth of vectors. Missing: limiters that have been played before (`C113_limiter`,
`C113_violation_used`) or whose rate was raised (`C113_violation_rate`), `feedback2` and listeners (`C113_feedback2`, `C113_listen`). -/
theorem C113_allocate_partial (g : Grow) (t : Tree) (hs : t.Sane) (hf : t.Fresh) : Silent g (t.allocate g) :=
  (silent_iff g _ (sane_allocate g t hs)).2 (allocate_settles g t false hs hf)

/-- Example: a net, not yet ordered, of a limiter and an oversampled plucked string. -/
example (g : Grow) : Silent g ((Tree.net false 0 2 fun i => if i = 0 then .limiter 44100 (1 / 100) .new
    else .one .over (.pluck 88200 440 false .new)).allocate g) := by
  refine C113_allocate_partial g _ (fun i => ?_) (fun i => ?_)
  · by_cases hi : i = 0
    · simp only [if_pos hi]
      exact le_rfl
    · simp only [if_neg hi]
      exact ⟨le_rfl, fun h => nomatch h⟩
  · by_cases hi : i = 0
    · simp only [if_pos hi]
      exact Or.inl rfl
    · simp only [if_neg hi]
      exact ⟨fun h => (nomatch h), trivial⟩

/-- Without `allocate` the same limiter asks for memory. -/
theorem C113_needed (g : Grow) (sr look : ℚ) : ¬ Silent g (.limiter sr look .new) := by
  rw [silent_iff g _ (show _ ≤ _ from le_rfl)]
  show ¬ max 1 _ ≤ 0
  omega

/-- So does a plucked string that is not prepared, unless its line has been made before. -/
theorem C113_needed_pluck (g : Grow) (sr f : ℚ) (h : 0 < lineLen sr f) : ¬ Silent g (.pluck sr f false .new) := by
  rw [silent_iff g (.pluck sr f false .new) ⟨le_rfl, fun h => nomatch h⟩]
  exact not_le.2 h

/-- So does a net whose order is not known, whatever its nodes. -/
theorem C113_needed_net (g : Grow) (a n : Nat) (x : Fin n → Tree) (hx : ∀ i, (x i).Sane) : ¬ Silent g (.net false a n x) := by
  rw [silent_iff g (.net false a n x) hx]
  rintro ⟨h, -⟩
  exact nomatch h

/-- Vectors that grow only as far as asked. -/
def Grow.exact : Grow := ⟨fun len _ more => len + more, fun _ _ _ => le_rfl⟩

/-- C113: for which limiters `allocate` suffices, whatever the growth of vectors: those whose buffer is full to its capacity or has room for the
lookahead already. -/
theorem C113_limiter (sr look : ℚ) (b : VecMem) (hb : b.len ≤ b.cap) :
    (∀ g, Silent g ((Tree.limiter sr look b).allocate g)) ↔ (b.len = b.cap ∨ limLen sr look ≤ b.cap) := by
  constructor
  · intro h
    by_contra hc
    have h1 := (silent_iff .exact _ (sane_allocate .exact (.limiter sr look b) hb)).1 (h .exact)
    have h2 : limLen sr look ≤ VecMem.cap (if b.cap < limLen sr look then b.reserve .exact (limLen sr look - b.cap) else b) := h1
    rw [if_pos (by omega)] at h2
    unfold VecMem.reserve at h2
    split at h2
    · omega
    · have : limLen sr look ≤ b.len + (limLen sr look - b.cap) := h2
      omega
  · exact fun h g => C113_allocate_partial g _ hb h

example : ∀ g, Silent g ((Tree.limiter 44100 (1 / 100) .new).allocate g) := (C113_limiter _ _ _ le_rfl).2 (Or.inl rfl)

/-- C113: plucked strings are prepared by `allocate` in any state, and stay so after resets and new hashes. -/
theorem C113_pluck (g : Grow) (sr f : ℚ) (init : Bool) (l : VecMem) (hl : l.len ≤ l.cap) (hi : init = true → l.len = lineLen sr f) :
    Silent g ((Tree.pluck sr f init l).allocate g) :=
  C113_allocate_partial g _ ⟨hl, hi⟩ trivial

example (g : Grow) : Silent g ((Tree.pluck 44100 440 false .new).allocate g) := C113_pluck g _ _ _ _ le_rfl fun h => nomatch h

/-- C113: a pair of nodes is prepared exactly if both are, for all operators but `feedback2`. -/
theorem C113_two (g : Grow) (k : Two) (hk : k ≠ .feedback2) (x y : Tree) (hx : x.Sane) (hy : y.Sane) :
    Silent g ((Tree.two k x y).allocate g) ↔ (Silent g (x.allocate g) ∧ Silent g (y.allocate g)) := by
  rw [silent_iff g _ (sane_allocate g (.two k x y) ⟨hx, hy⟩), silent_iff g _ (sane_allocate g x hx),
    silent_iff g _ (sane_allocate g y hy)]
  cases k <;> first | exact Iff.rfl | exact absurd rfl hk

example (g : Grow) (x y : Tree) (hx : x.Sane) (hy : y.Sane) := C113_two g .pipe (fun h => nomatch h) x y hx hy

/-- C113: a node around another is prepared exactly if that is, for all but listeners. -/
theorem C113_one (g : Grow) (k : One) (hk : k ≠ .listen) (x : Tree) (hx : x.Sane) :
    Silent g ((Tree.one k x).allocate g) ↔ Silent g (x.allocate g) := by
  rw [silent_iff g _ (sane_allocate g (.one k x) hx), silent_iff g _ (sane_allocate g x hx)]
  cases k <;> first | exact Iff.rfl | exact absurd rfl hk

example (g : Grow) (x : Tree) (hx : x.Sane) := C113_one g .over (fun h => nomatch h) x hx

/-- C113: any number of nodes is prepared exactly if every one is. -/
theorem C113_many (g : Grow) (k : Many) (n : Nat) (x : Fin n → Tree) (hx : ∀ i, (x i).Sane) :
    Silent g ((Tree.many k n x).allocate g) ↔ ∀ i, Silent g ((x i).allocate g) := by
  rw [silent_iff g _ (sane_allocate g (.many k n x) hx)]
  exact forall_congr' fun i => (silent_iff g _ (sane_allocate g (x i) (hx i))).symm

example (g : Grow) (x : Tree) (hx : x.Sane) := C113_many g .chain 3 (fun _ => x) fun _ => hx

/-- C113: what `allocate` does for `feedback2`: the node in the loop is prepared, the node in the feedback path is left as it is. -/
theorem C113_feedback2 (g : Grow) (x y : Tree) (hx : x.Sane) (hy : y.Sane) :
    Silent g ((Tree.two .feedback2 x y).allocate g) ↔ (Silent g (x.allocate g) ∧ Silent g y) := by
  rw [silent_iff g _ (sane_allocate g (.two .feedback2 x y) ⟨hx, hy⟩), silent_iff g _ (sane_allocate g x hx), silent_iff g y hy]
  exact Iff.rfl

example (g : Grow) : Silent g ((Tree.two .feedback2 (.limiter 44100 1 .new) .plain).allocate g) :=
  (C113_feedback2 g (.limiter 44100 1 .new) .plain (show _ ≤ _ from le_rfl) trivial).2 ⟨C113_allocate_partial g _ le_rfl (Or.inl rfl), (silent_iff g .plain trivial).2 trivial⟩

/-- C113: a listener does not pass `allocate` on. -/
theorem C113_listen (g : Grow) (x : Tree) : (Tree.one .listen x).allocate g = .one .listen x := rfl

/-- C113 fails: a new limiter in the feedback path of `feedback2` asks for memory after `allocate`. -/
theorem C113_violation_feedback2 (g : Grow) (sr look : ℚ) : ¬ Silent g ((Tree.two .feedback2 .plain (.limiter sr look .new)).allocate g) :=
  fun h => C113_needed g sr look ((C113_feedback2 g .plain _ trivial (show _ ≤ _ from le_rfl)).1 h).2

/-- C113 fails: a new limiter with a setting listener asks for memory after `allocate`. -/
theorem C113_violation_listen (g : Grow) (sr look : ℚ) : ¬ Silent g ((Tree.one .listen (.limiter sr look .new)).allocate g) := by
  rw [C113_listen, silent_iff g _ (show _ ≤ _ from le_rfl)]
  show ¬ max 1 _ ≤ 0
  omega

/-- C113 fails with the growth of the standard library: a limiter of 10 ms is allocated at 44.1 kHz; then its rate is set to 88.2 kHz and it is
allocated again, which does nothing, as a buffer of 441 frames is taken to have room for 441 more. It asks for memory when played. -/
theorem C113_violation_rate :
    ¬ Silent .std ((((Tree.limiter 44100 (1 / 100) .new).allocate .std).setRate 88200).allocate .std) := by
  have e1 : limLen 44100 (1 / 100) = 441 := by unfold limLen; norm_num; rfl
  have e2 : limLen 88200 (1 / 100) = 882 := by unfold limLen; norm_num; rfl
  generalize (1 / 100 : ℚ) = look at e1 e2
  have e3 : ((((Tree.limiter 44100 look .new).allocate .std).setRate 88200).allocate .std) = .limiter 88200 look ⟨0, 441, 1⟩ := by
    simp [Tree.allocate, Tree.allocateAfter, Tree.setRate, e1, e2, VecMem.reserve, VecMem.new, VecMem.clear, Grow.std]
  rw [e3, silent_iff _ (.limiter 88200 look ⟨0, 441, 1⟩) (show 0 ≤ 441 by omega)]
  show ¬ limLen 88200 look ≤ 441
  omega

/-- C113 fails with the growth of the standard library: a limiter of 10 ms at 44.1 kHz is played for 3 samples, then allocated and played on. Its
buffer has room for 4 frames, of which it uses 3; 437 more are asked for, one too few. -/
theorem C113_violation_used :
    ¬ Silent .std (((Tree.limiter 44100 (1 / 100) .new).play .std (fun _ n => n) 3).allocate .std) := by
  have e1 : limLen 44100 (1 / 100) = 441 := by unfold limLen; norm_num; rfl
  generalize (1 / 100 : ℚ) = look at e1
  have e2 : (((Tree.limiter 44100 look .new).play .std (fun _ n => n) 3).allocate .std) = .limiter 44100 look ⟨3, 440, 2⟩ := by
    simp [Tree.allocate, Tree.allocateAfter, Tree.play, Tree.playAfter, e1, VecMem.reserve, VecMem.new, Grow.std, limTick, VecMem.push]
  rw [e2, silent_iff _ (.limiter 44100 look ⟨3, 440, 2⟩) (show 3 ≤ 440 by omega)]
  show ¬ limLen 44100 look ≤ 440
  omega

end Fundsp.Mem
