import Verif.Hash.Model
import Mathlib.Data.Fintype.EquivFin

/-! C21: the hashes are bijections, `ping` distributes them deterministically. -/

namespace Fundsp.Hash

theorem xorshift_injective {w : Nat} (k : Nat) (hk : 0 < k) : Function.Injective (fun x : BitVec w => x ^^^ (x >>> k)) := by
  intro x y h
  simp only at h
  have key : ∀ d i, w ≤ i + d → x.getLsbD i = y.getLsbD i := by
    intro d
    induction d with
    | zero => intro i hi; rw [BitVec.getLsbD_of_ge x i (by omega), BitVec.getLsbD_of_ge y i (by omega)]
    | succ d ih =>
      intro i hi
      have h2 := congrArg (fun z => z.getLsbD i) h
      simp only [BitVec.getLsbD_xor, BitVec.getLsbD_ushiftRight] at h2
      rw [ih (k + i) (by omega)] at h2
      cases hx : x.getLsbD i <;> cases hy : y.getLsbD i <;> cases hz : y.getLsbD (k + i) <;> simp_all
  apply BitVec.eq_of_getLsbD_eq
  intro i _
  exact key w i (by omega)

theorem mul_injective {w : Nat} (c inv : BitVec w) (h : c * inv = 1#w) : Function.Injective (fun x : BitVec w => x * c) := by
  intro x y hxy
  have := congrArg (· * inv) hxy
  simp only [BitVec.mul_assoc, h, BitVec.mul_one] at this
  exact this

theorem xor_injective {w : Nat} (c : BitVec w) : Function.Injective (fun x : BitVec w => x ^^^ c) := by
  intro x y h
  have := congrArg (· ^^^ c) h
  simpa [BitVec.xor_assoc] using this

theorem rotl_injective : Function.Injective (fun x : BitVec 64 => x.rotateLeft 5) := by
  intro x y h
  apply BitVec.eq_of_getLsbD_eq
  intro i hi
  have h2 := congrArg (fun z => z.getLsbD ((i + 5) % 64)) h
  simp only [BitVec.getLsbD_rotateLeft] at h2
  by_cases h5 : i + 5 < 64
  · rw [Nat.mod_eq_of_lt h5] at h2
    have e : i + 5 - 5 = i := by omega
    simpa [show ¬ i + 5 < 5 by omega, h5, e] using h2
  · have e : (i + 5) % 64 = i + 5 - 64 := by omega
    rw [e] at h2
    have e3 : 59 + (i - 59) = i := by omega
    simpa [show i - 59 < 5 by omega, e3] using h2

theorem bijective_of {w : Nat} {f : BitVec w → BitVec w} (h : Function.Injective f) : Function.Bijective f :=
  have : Finite (BitVec w) := Finite.of_injective (BitVec.toFin) (fun _ _ h => BitVec.eq_of_toFin_eq h)
  Finite.injective_iff_bijective.1 h

/-- **C21** the 64-bit hash is a permutation of the machine words. -/
theorem C21_hash1 : Function.Bijective hash1 := by
  apply bijective_of
  have m := mul_injective (w := 64) 0x517cc1b727220a95#64 0x2040003d780970bd#64 (by decide)
  have n := mul_injective (w := 64) 0xd6e8feb86659fd93#64 0xcfee444d8b59a89b#64 (by decide)
  have s := xorshift_injective (w := 64) 32 (by decide)
  exact s.comp (n.comp (s.comp (n.comp (s.comp (m.comp (xor_injective (w := 64) 0x5555555555555555#64))))))

/-- **C21** the word behind `rnd1` is a permutation. -/
theorem C21_rnd1 : Function.Bijective rnd1Word := by
  apply bijective_of
  have m := mul_injective (w := 64) 0x9e3779b97f4a7c15#64 0xf1de83e19937733d#64 (by decide)
  have n := mul_injective (w := 64) 0xbf58476d1ce4e5b9#64 0x96de1b173f119089#64 (by decide)
  have o := mul_injective (w := 64) 0x94d049bb133111eb#64 0x319642b2d24d8ec3#64 (by decide)
  have s30 := xorshift_injective (w := 64) 30 (by decide)
  have s27 := xorshift_injective (w := 64) 27 (by decide)
  have s31 := xorshift_injective (w := 64) 31 (by decide)
  exact s31.comp (o.comp (s27.comp (n.comp (s30.comp (m.comp (xor_injective (w := 64) 0x5555555555555555#64))))))

/-- **C21** the 32-bit noise hash is a permutation: white noise visits every 32-bit value once per period. -/
theorem C21_hash32x : Function.Bijective hash32x := by
  apply bijective_of
  have m := mul_injective (w := 32) 0x45d9f3b#32 0x119de1f3#32 (by decide)
  have s := xorshift_injective (w := 32) 16 (by decide)
  exact m.comp (s.comp (m.comp (s.comp (m.comp s))))

/-- **C21** one step of the component hash: a permutation of the state for fixed data, and of the data for fixed state. -/
theorem C21_atto : (∀ d, Function.Bijective (fun s => attoHash s d)) ∧ (∀ s, Function.Bijective (attoHash s)) := by
  have m := mul_injective (w := 64) 0x517cc1b727220a95#64 0x2040003d780970bd#64 (by decide)
  constructor
  · intro d
    apply bijective_of
    exact m.comp ((xor_injective d).comp rotl_injective)
  · intro s
    apply bijective_of
    intro x y h
    have h2 := m h
    have := congrArg (fun z => s.rotateLeft 5 ^^^ z) h2
    simpa [← BitVec.xor_assoc] using this

/-! ### Ping -/

mutual
/-- Shape of a component: the tree of IDs, without the hashes. -/
def Comp.ids : Comp → List (BitVec 64)
  | .leaf id _ => [id]
  | .node id cs => id :: idsList cs
def idsList : List Comp → List (BitVec 64)
  | [] => []
  | c :: cs => c.ids ++ idsList cs
/-- For every leaf in order: its position in the preorder list of IDs and its current hash. -/
def Comp.leaves (pos : Nat) : Comp → List (Nat × BitVec 64)
  | .leaf _ h => [(pos, h)]
  | .node _ cs => leavesList (pos + 1) cs
def leavesList (pos : Nat) : List Comp → List (Nat × BitVec 64)
  | [] => []
  | c :: cs => c.leaves pos ++ leavesList (pos + c.ids.length) cs
end

mutual
theorem Comp.ping_probe (h : BitVec 64) : ∀ c : Comp, (c.ping true h).1 = c
  | .leaf id old => rfl
  | .node id cs => by simp only [Comp.ping]; rw [pingList_probe]
theorem pingList_probe (h : BitVec 64) : ∀ cs, (pingList true h cs).1 = cs
  | [] => rfl
  | c :: cs => by simp only [pingList]; rw [Comp.ping_probe, pingList_probe]
end

mutual
theorem Comp.ping_ids (p : Bool) (h : BitVec 64) : ∀ c : Comp, (c.ping p h).1.ids = c.ids ∧ (c.ping p h).2 = c.ids.foldl attoHash h
  | .leaf id old => ⟨rfl, rfl⟩
  | .node id cs => by
    obtain ⟨h1, h2⟩ := pingList_ids p (attoHash h id) cs
    simp [Comp.ping, Comp.ids, h1, h2]
theorem pingList_ids (p : Bool) (h : BitVec 64) : ∀ cs, idsList (pingList p h cs).1 = idsList cs ∧
    (pingList p h cs).2 = (idsList cs).foldl attoHash h
  | [] => ⟨rfl, rfl⟩
  | c :: cs => by
    obtain ⟨h1, h2⟩ := Comp.ping_ids p h c
    obtain ⟨h3, h4⟩ := pingList_ids p (c.ping p h).2 cs
    simp only [pingList, idsList]
    rw [h1, h3, h4, h2, List.foldl_append]
    exact ⟨rfl, rfl⟩
end

mutual
theorem Comp.ping_leaves (h : BitVec 64) : ∀ (c : Comp) (pre : List (BitVec 64)) (h0 : BitVec 64), h = pre.foldl attoHash h0 →
    ∀ post, (c.ping false h).1.leaves pre.length = (c.leaves pre.length).map (fun l => (l.1, ((pre ++ c.ids ++ post).take l.1).foldl attoHash h0))
  | .leaf id old => by
    intro pre h0 hh post
    simp [Comp.ping, Comp.leaves, hh]
  | .node id cs => by
    intro pre h0 hh post
    have := pingList_leaves (attoHash h id) cs (pre ++ [id]) h0 (by simp [hh]) post
    simp only [List.length_append, List.length_singleton] at this
    simp only [Comp.ping, Comp.leaves, Comp.ids, this]
    simp
theorem pingList_leaves (h : BitVec 64) : ∀ (cs : List Comp) (pre : List (BitVec 64)) (h0 : BitVec 64), h = pre.foldl attoHash h0 →
    ∀ post, leavesList pre.length (pingList false h cs).1 =
      (leavesList pre.length cs).map (fun l => (l.1, ((pre ++ idsList cs ++ post).take l.1).foldl attoHash h0))
  | [] => by intro pre h0 hh post; rfl
  | c :: cs => by
    intro pre h0 hh post
    have a := Comp.ping_leaves h c pre h0 hh (idsList cs ++ post)
    obtain ⟨h1, h2⟩ := Comp.ping_ids false h c
    have b := pingList_leaves (c.ping false h).2 cs (pre ++ c.ids) h0 (by rw [h2, hh, List.foldl_append]) post
    simp only [List.length_append] at b
    simp only [pingList, leavesList, idsList, List.map_append, a, h1, b]
    simp
end

/-- **C21** `ping` hands every component the hash obtained by hashing, from the given seed, the IDs of all components visited
before it. It is a function of the seed and the tree of IDs only: the hashes held before the ping do not matter, probing
changes nothing, and pinging again gives the same hashes. -/
theorem C21_ping (c : Comp) (h : BitVec 64) :
    (c.ping false h).1.leaves 0 = (c.leaves 0).map (fun l => (l.1, (c.ids.take l.1).foldl attoHash h)) ∧
    (c.ping false h).1.ids = c.ids ∧ (∀ p, (c.ping p h).2 = c.ids.foldl attoHash h) ∧ (c.ping true h).1 = c := by
  have := Comp.ping_leaves h c [] h rfl []
  simp only [List.nil_append, List.append_nil, List.length_nil] at this
  exact ⟨this, (Comp.ping_ids false h c).1, fun p => (Comp.ping_ids p h c).2, Comp.ping_probe h c⟩

/-- **C21** the hash at any position of the tree is a permutation of the seed: two seeds never collide anywhere. -/
theorem C21_ping_injective (ids : List (BitVec 64)) : Function.Bijective (fun h => ids.foldl attoHash h) := by
  induction ids with
  | nil => exact Function.bijective_id
  | cons a ids ih => exact ih.comp (C21_atto.1 a)

/-- **C21** consecutive components get different hashes unless their predecessor's ID maps the hash to itself; in particular
siblings of a binary combinator with the same seed differ whenever the state is not a fixed point. -/
theorem C21_step_collision (h a b : BitVec 64) : attoHash h a = attoHash h b ↔ a = b :=
  (C21_atto.2 h).1.eq_iff

/-- Two oscillators in a stack, pinged. -/
example : ((Comp.node 3 [.leaf 21 0, .leaf 21 0]).ping false 7).1.leaves 0 =
    [(1, attoHash 7 3), (2, attoHash (attoHash 7 3) 21)] := rfl

end Fundsp.Hash
