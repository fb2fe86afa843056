import Verif.Core.Node

/-! `IdGenerator`, `shared.rs:393-450` (C29), as a transition system of threads with atomic steps (sequentially consistent
interleaving; a `fetch_update` compare-exchange loop is one atomic read-modify-write). -/

namespace Fundsp.Ids

/-- 32-bit words. -/
def W : Nat := 2 ^ 32
/-- `DANGER`, `shared.rs:401`. -/
def DANGER : Nat := 0xfff00000

/-- Where a thread is inside `get_id`, `shared.rs:412-449`. -/
inductive PC where
  /-- about to execute the `fetch_update` of lines 414-419 -/
  | idle
  /-- has `low < DANGER`, about to load `high` (line 421) -/
  | fetched (low : Nat)
  /-- has loaded `high`, about to load `low` again (line 422) -/
  | loaded (low high : Nat)
  /-- has `low ≥ DANGER`, about to increment `high` (lines 432-437) -/
  | danger (low : Nat)
  /-- about to rewind the low word (lines 438-447) -/
  | bumped (low high : Nat)

/-- The generator, the threads using it and the identifiers handed out. `age t` is an observation only: how many `low` increments
other threads made since thread `t`'s last one. -/
structure State where
  low : Nat
  high : Nat
  pc : Nat → PC
  age : Nat → Nat
  out : List Nat

def init : State := { low := 0, high := 0, pc := fun _ => .idle, age := fun _ => 0, out := [] }

/-- `low as u64 | ((high as u64) << 32)`. -/
def enc (low high : Nat) : Nat := low ||| (high <<< 32)

def upd {β : Type} (f : Nat → β) (t : Nat) (x : β) : Nat → β := fun u => if u = t then x else f u

/-- One atomic action of thread `t`. A thread that has returned starts another call. -/
def step (s : State) (t : Nat) : State :=
  match s.pc t with
  | .idle =>
    { s with
      low := (s.low + 1) % W
      pc := upd s.pc t (if s.low < DANGER then .fetched s.low else .danger s.low)
      age := fun u => if u = t then 0 else s.age u + 1 }
  | .fetched l => { s with pc := upd s.pc t (.loaded l s.high) }
  | .loaded l h =>
    if s.low < l ∨ s.low ≥ DANGER then { s with pc := upd s.pc t .idle }
    else { s with pc := upd s.pc t .idle, out := enc l h :: s.out }
  | .danger l => { s with high := (s.high + 1) % W, pc := upd s.pc t (.bumped l s.high) }
  | .bumped l h =>
    { s with low := (if s.low < DANGER then s.low else 0), pc := upd s.pc t .idle, out := enc l h :: s.out }

/-- Execution of an interleaving. -/
def run (s : State) (sched : List Nat) : State := sched.foldl step s

/-! ## Uniqueness -/

/-- Before this step: no call in progress has been overtaken by `DANGER` (about 4.29 billion) other calls, and neither word is about
to overflow. -/
def Fair (s : State) (t : Nat) : Prop :=
  (s.pc t ≠ .idle → s.age t < DANGER) ∧ s.low + 1 < W ∧ s.high + 1 < W

def FairRun : State → List Nat → Prop
  | _, [] => True
  | s, t :: ts => Fair s t ∧ FairRun (step s t) ts

def PC.low? : PC → Option Nat
  | .idle => none
  | .fetched l => some l
  | .loaded l _ => some l
  | .danger l => some l
  | .bumped l _ => some l

def PC.bumped? : PC → Option Nat
  | .bumped _ h => some h
  | _ => none

theorem enc_eq {l h : Nat} (hl : l < W) : enc l h = h * W + l := by
  unfold enc W at *
  rw [Nat.or_comm, Nat.shiftLeft_eq, Nat.mul_comm, ← Nat.two_pow_add_eq_or_of_lt hl]

theorem enc_inj {l h l' h' : Nat} (hl : l < W) (hl' : l' < W) (e : enc l h = enc l' h') : l = l' ∧ h = h' := by
  rw [enc_eq hl, enc_eq hl'] at e
  unfold W at *
  omega

theorem danger_lt : DANGER < W := by unfold DANGER W; decide

/-- What is known of a thread; `cur` says its last increment belongs to the present epoch (since the last rewind). -/
structure ThOK (s : State) (H0 cap : Nat) (cur : Prop) (age : Nat) (pc : PC) : Prop where
  now : cur → ∀ l, pc.low? = some l → s.low = l + 1 + age
  old : ¬ cur → ∀ l, pc.low? = some l → s.low ≤ age ∧ (l < DANGER → s.low + DANGER ≤ age + l)
  nrm : ∀ l, pc = .fetched l → l < DANGER
  nrm' : ∀ l h, pc = .loaded l h → l < DANGER ∧ (cur → H0 ≤ h ∧ (s.low < DANGER → h ≤ cap))
  dng : ∀ l, pc = .danger l → DANGER ≤ l ∧ l < W
  dng' : ∀ l h, pc = .bumped l h → DANGER ≤ l ∧ l < W ∧ h < s.high ∧ (cur → cap ≤ h)

structure Inv (s : State) (H0 cap : Nat) (cur : Nat → Prop) : Prop where
  h0 : H0 ≤ cap
  capLe : cap ≤ s.high
  capEq : s.low ≤ DANGER → cap = s.high
  nodup : s.out.Nodup
  out : ∀ x ∈ s.out,
    (∃ l h, x = enc l h ∧ l < DANGER ∧ (h < H0 ∨ l < s.low ∧ h ≤ cap ∧ ∀ t, cur t → (s.pc t).low? ≠ some l)) ∨
    (∃ l h, x = enc l h ∧ DANGER ≤ l ∧ l < W ∧ h < s.high ∧ ∀ t, (s.pc t).bumped? ≠ some h)
  th : ∀ t, ThOK s H0 cap (cur t) (s.age t) (s.pc t)
  tok : ∀ t t' l, cur t → cur t' → (s.pc t).low? = some l → (s.pc t').low? = some l → t = t'
  bmp : ∀ t t' h, (s.pc t).bumped? = some h → (s.pc t').bumped? = some h → t = t'

theorem idle_ok (s : State) (H0 cap : Nat) (cur : Prop) (age : Nat) : ThOK s H0 cap cur age .idle :=
  ⟨fun _ l h => (by cases h), fun _ l h => (by cases h), fun l h => (by cases h), fun l h e => (by cases e), fun l h => (by cases h), fun l h e => (by cases e)⟩

theorem upd_same {β : Type} (f : Nat → β) (t : Nat) (x : β) : upd f t x t = x := if_pos rfl
theorem upd_ne {β : Type} (f : Nat → β) {t u : Nat} (x : β) (h : u ≠ t) : upd f t x u = f u := if_neg h

theorem upd_idle_low {pc : Nat → PC} {t u l : Nat} (h : (upd pc t .idle u).low? = some l) : u ≠ t ∧ (pc u).low? = some l := by
  by_cases e : u = t
  · subst e; rw [upd_same] at h; cases h
  · rw [upd_ne _ _ e] at h; exact ⟨e, h⟩

theorem upd_idle_bumped {pc : Nat → PC} {t u l : Nat} (h : (upd pc t .idle u).bumped? = some l) : u ≠ t ∧ (pc u).bumped? = some l := by
  by_cases e : u = t
  · subst e; rw [upd_same] at h; cases h
  · rw [upd_ne _ _ e] at h; exact ⟨e, h⟩

theorem step_inv {s : State} {H0 cap : Nat} {cur : Nat → Prop} (i : Inv s H0 cap cur) (t : Nat) (f : Fair s t) :
    ∃ H0 cap cur, Inv (step s t) H0 cap cur := by
  obtain ⟨fa, fl, fh⟩ := f
  have hD := danger_lt
  have thT := i.th t
  unfold step
  match hp : s.pc t with
  | .idle =>
    rw [Nat.mod_eq_of_lt fl]
    have hlow : ∀ {u l}, (upd s.pc t (if s.low < DANGER then PC.fetched s.low else PC.danger s.low) u).low? = some l →
        (u = t ∧ l = s.low) ∨ (u ≠ t ∧ (s.pc u).low? = some l) := by
      intro u l h
      by_cases e : u = t
      · subst e; rw [upd_same] at h; left; refine ⟨rfl, ?_⟩; split at h <;> (cases h; rfl)
      · rw [upd_ne _ _ e] at h; exact .inr ⟨e, h⟩
    have hbmp : ∀ {u l}, (upd s.pc t (if s.low < DANGER then PC.fetched s.low else PC.danger s.low) u).bumped? = some l →
        (s.pc u).bumped? = some l := by
      intro u l h
      by_cases e : u = t
      · subst e; rw [upd_same] at h; split at h <;> cases h
      · rw [upd_ne _ _ e] at h; exact h
    refine ⟨H0, cap, fun u => u = t ∨ cur u, ⟨i.h0, i.capLe, fun h => i.capEq (by simp at h; omega), i.nodup, ?_, ?_, ?_, ?_⟩⟩
    · intro x hx
      rcases i.out x hx with ⟨l, h, hx, hl, hh⟩ | ⟨l, h, hx, h1, h2, h3, h4⟩
      · left
        refine ⟨l, h, hx, hl, hh.imp_right ?_⟩
        rintro ⟨h1, h2, h3⟩
        refine ⟨by simp only; omega, h2, fun u hu hc => ?_⟩
        rcases hlow hc with ⟨rfl, rfl⟩ | ⟨e, hc⟩
        · omega
        · exact h3 u (hu.resolve_left e) hc
      · right
        exact ⟨l, h, hx, h1, h2, h3, fun u hc => h4 u (hbmp hc)⟩
    · intro u
      by_cases e : u = t
      · subst e
        simp only [upd_same, if_true]
        refine ⟨?_, fun h => absurd (Or.inl trivial) h, ?_, ?_, ?_, ?_⟩
        · intro _ l hl
          have : l = s.low := by split at hl <;> (cases hl; rfl)
          subst this; simp
        · intro l hl; split at hl <;> cases hl; assumption
        · intro l h hl; split at hl <;> cases hl
        · intro l hl; split at hl <;> cases hl
          exact ⟨by omega, by omega⟩
        · intro l h hl; split at hl <;> cases hl
      · have thU := i.th u
        simp only [upd_ne _ _ e, if_neg e, false_or]
        refine ⟨?_, ?_, thU.nrm, ?_, thU.dng, fun l h hl => ?_⟩
        rotate_right
        · obtain ⟨h1, h2, h3, h4⟩ := thU.dng' l h hl
          exact ⟨h1, h2, h3, fun hc => h4 (hc.resolve_left e)⟩
        · intro hc l hl; have := thU.now (hc.resolve_left e) l hl; simp only; omega
        · intro hc l hl
          have := thU.old (fun h => hc (.inr h)) l hl
          exact ⟨by simp only; omega, fun h => by have := this.2 h; simp only; omega⟩
        · intro l h hl
          have := thU.nrm' l h hl
          exact ⟨this.1, fun hc => ⟨(this.2 (hc.resolve_left e)).1, fun h' => (this.2 (hc.resolve_left e)).2 (by simp only at h'; omega)⟩⟩
    · intro u u' l hu hu' h1 h2
      have key : ∀ {u}, cur u → (s.pc u).low? = some l → l < s.low := fun {u} hc hl => by
        have := (i.th u).now hc l hl; omega
      rcases hlow h1 with ⟨rfl, rfl⟩ | ⟨e, h1⟩ <;> rcases hlow h2 with ⟨e', e''⟩ | ⟨e', h2⟩
      · exact e'.symm
      · have := key (hu'.resolve_left e') h2; omega
      · subst e''; have := key (hu.resolve_left e) h1; omega
      · exact i.tok u u' l (hu.resolve_left e) (hu'.resolve_left e') h1 h2
    · intro u u' h h1 h2
      exact i.bmp u u' h (hbmp h1) (hbmp h2)
  | .fetched l0 =>
    have hl0 := thT.nrm l0 hp
    have hlow : ∀ u, (upd s.pc t (PC.loaded l0 s.high) u).low? = (s.pc u).low? := by
      intro u
      by_cases e : u = t
      · subst e; rw [upd_same, hp]; rfl
      · rw [upd_ne _ _ e]
    have hbmp : ∀ u, (upd s.pc t (PC.loaded l0 s.high) u).bumped? = (s.pc u).bumped? := by
      intro u
      by_cases e : u = t
      · subst e; rw [upd_same, hp]; rfl
      · rw [upd_ne _ _ e]
    refine ⟨H0, cap, cur, ⟨i.h0, i.capLe, i.capEq, i.nodup, ?_, ?_, ?_, ?_⟩⟩
    · simp only [hlow, hbmp]; exact i.out
    · intro u
      by_cases e : u = t
      · subst e
        simp only [upd_same]
        refine ⟨fun hc l hl => thT.now hc l (by rw [hp]; exact hl), fun hc l hl => thT.old hc l (by rw [hp]; exact hl),
          fun l h => (by cases h), ?_, fun l h => (by cases h), fun l h e => (by cases e)⟩
        intro l h hl
        cases hl
        refine ⟨hl0, fun hc => ⟨Nat.le_trans i.h0 i.capLe, fun h' => ?_⟩⟩
        rw [i.capEq (by simp only at h'; omega)]
        exact Nat.le_refl _
      · have thU := i.th u
        simp only [upd_ne _ _ e]
        exact ⟨thU.now, thU.old, thU.nrm, thU.nrm', thU.dng, thU.dng'⟩
    · simp only [hlow]; exact i.tok
    · simp only [hbmp]; exact i.bmp
  | .loaded l0 h0 =>
    obtain ⟨hl0, hcur⟩ := thT.nrm' l0 h0 hp
    have hth : ∀ (o : List Nat) (u : Nat), ThOK { s with pc := upd s.pc t .idle, out := o } H0 cap (cur u) (s.age u) (upd s.pc t .idle u) := by
      intro o u
      by_cases e : u = t
      · subst e; rw [upd_same]; exact idle_ok ..
      · have thU := i.th u
        rw [upd_ne _ _ e]
        exact ⟨thU.now, thU.old, thU.nrm, thU.nrm', thU.dng, thU.dng'⟩
    have hout : ∀ x ∈ s.out,
        (∃ l h, x = enc l h ∧ l < DANGER ∧ (h < H0 ∨ l < s.low ∧ h ≤ cap ∧ ∀ u, cur u → (upd s.pc t .idle u).low? ≠ some l)) ∨
        (∃ l h, x = enc l h ∧ DANGER ≤ l ∧ l < W ∧ h < s.high ∧ ∀ u, (upd s.pc t .idle u).bumped? ≠ some h) := by
      intro x hx
      rcases i.out x hx with ⟨l, h, hx, hl, hh⟩ | ⟨l, h, hx, h1, h2, h3, h4⟩
      · left
        refine ⟨l, h, hx, hl, hh.imp_right ?_⟩
        rintro ⟨h1, h2, h3⟩
        exact ⟨h1, h2, fun u hu hc => h3 u hu (upd_idle_low hc).2⟩
      · right
        exact ⟨l, h, hx, h1, h2, h3, fun u hc => h4 u (upd_idle_bumped hc).2⟩
    have htok : ∀ u u' l, cur u → cur u' → (upd s.pc t .idle u).low? = some l → (upd s.pc t .idle u').low? = some l → u = u' :=
      fun u u' l hu hu' h1 h2 => i.tok u u' l hu hu' (upd_idle_low h1).2 (upd_idle_low h2).2
    have hbmp : ∀ u u' h, (upd s.pc t .idle u).bumped? = some h → (upd s.pc t .idle u').bumped? = some h → u = u' :=
      fun u u' h h1 h2 => i.bmp u u' h (upd_idle_bumped h1).2 (upd_idle_bumped h2).2
    simp only
    split
    · exact ⟨H0, cap, cur, ⟨i.h0, i.capLe, i.capEq, i.nodup, hout, hth _, htok, hbmp⟩⟩
    · rename_i hr
      have ha := fa (by rw [hp]; intro h; cases h)
      have hc : cur t := by
        apply Classical.byContradiction
        intro hn
        have := (thT.old hn l0 (by rw [hp]; rfl)).2 hl0
        omega
      obtain ⟨hH, hC⟩ := hcur hc
      have hcl := thT.now hc l0 (by rw [hp]; rfl)
      have hcap := hC (by omega)
      refine ⟨H0, cap, cur, ⟨i.h0, i.capLe, i.capEq, ?_, ?_, hth _, htok, hbmp⟩⟩
      · refine List.nodup_cons.2 ⟨fun hx => ?_, i.nodup⟩
        rcases i.out _ hx with ⟨l, h, he, hl, hh⟩ | ⟨l, h, he, h1, h2, h3, h4⟩
        · obtain ⟨rfl, rfl⟩ := enc_inj (by omega) (by omega) he
          rcases hh with hh | ⟨_, _, h3⟩
          · omega
          · exact h3 t hc (by rw [hp]; rfl)
        · obtain ⟨rfl, rfl⟩ := enc_inj (by omega) (by omega) he
          omega
      · intro x hx
        rcases List.mem_cons.1 hx with rfl | hx
        · left
          refine ⟨l0, h0, rfl, hl0, .inr ⟨by simp only; omega, hcap, fun u hu hcu => ?_⟩⟩
          obtain ⟨hne, hcu⟩ := upd_idle_low hcu
          exact hne (i.tok u t l0 hu hc hcu (by rw [hp]; rfl))
        · exact hout x hx
  | .danger l0 =>
    obtain ⟨hl0, hl0'⟩ := thT.dng l0 hp
    have hlow : ∀ u, (upd s.pc t (PC.bumped l0 s.high) u).low? = (s.pc u).low? := by
      intro u
      by_cases e : u = t
      · subst e; rw [upd_same, hp]; rfl
      · rw [upd_ne _ _ e]
    have hbmp : ∀ {u h}, (upd s.pc t (PC.bumped l0 s.high) u).bumped? = some h → (u = t ∧ h = s.high) ∨ (u ≠ t ∧ (s.pc u).bumped? = some h) := by
      intro u h hu
      by_cases e : u = t
      · subst e; rw [upd_same] at hu; cases hu; exact .inl ⟨rfl, rfl⟩
      · rw [upd_ne _ _ e] at hu; exact .inr ⟨e, hu⟩
    have hlt : ∀ {u h}, (s.pc u).bumped? = some h → h < s.high := by
      intro u h hu
      match hpu : s.pc u with
      | .bumped l h' => rw [hpu] at hu; cases hu; exact ((i.th u).dng' l h hpu).2.2.1
      | .idle | .fetched _ | .loaded _ _ | .danger _ => rw [hpu] at hu; cases hu
    rw [Nat.mod_eq_of_lt fh]
    -- the cap follows `high` until the first increment into the danger zone
    obtain ⟨cap', hcap1, hcap2, hcap3, hcap4⟩ : ∃ cap', cap ≤ cap' ∧ cap' ≤ s.high + 1 ∧ (s.low ≤ DANGER → cap' = s.high + 1) ∧
        (DANGER < s.low → cap' = cap) := by
      by_cases h : s.low ≤ DANGER
      · exact ⟨s.high + 1, by have := i.capLe; omega, Nat.le_refl _, fun _ => rfl, fun h' => by omega⟩
      · exact ⟨cap, Nat.le_refl _, by have := i.capLe; omega, fun h' => absurd h' h, fun _ => rfl⟩
    have hcapc : ∀ u l, cur u → (s.pc u).low? = some l → DANGER ≤ l → cap' = cap := by
      intro u l hc hl hd
      have := (i.th u).now hc l hl
      exact hcap4 (by omega)
    refine ⟨H0, cap', cur, ⟨Nat.le_trans i.h0 hcap1, hcap2, hcap3, i.nodup, ?_, ?_, ?_, ?_⟩⟩
    · intro x hx
      rcases i.out x hx with ⟨l, h, hx, hl, hh⟩ | ⟨l, h, hx, h1, h2, h3, h4⟩
      · left
        simp only [hlow]
        exact ⟨l, h, hx, hl, hh.imp_right (fun ⟨h1, h2, h3⟩ => ⟨h1, by omega, h3⟩)⟩
      · right
        refine ⟨l, h, hx, h1, h2, by simp only; omega, fun u hc => ?_⟩
        rcases hbmp hc with ⟨_, e⟩ | ⟨_, hc⟩
        · omega
        · exact h4 u hc
    · intro u
      by_cases e : u = t
      · subst e
        simp only [upd_same]
        refine ⟨fun hc l hl => thT.now hc l (by rw [hp]; exact hl), fun hc l hl => thT.old hc l (by rw [hp]; exact hl),
          fun l h => (by cases h), fun l h e => (by cases e), fun l h => (by cases h), ?_⟩
        intro l h e
        cases e
        refine ⟨hl0, hl0', by simp only; omega, fun hc => ?_⟩
        rw [hcapc u l0 hc (by rw [hp]; rfl) hl0]
        exact i.capLe
      · have thU := i.th u
        simp only [upd_ne _ _ e]
        refine ⟨thU.now, thU.old, thU.nrm, ?_, thU.dng, ?_⟩
        · intro l h hl
          obtain ⟨h1, h2⟩ := thU.nrm' l h hl
          exact ⟨h1, fun hc => ⟨(h2 hc).1, fun h' => Nat.le_trans ((h2 hc).2 h') hcap1⟩⟩
        · intro l h hl
          obtain ⟨h1, h2, h3, h4⟩ := thU.dng' l h hl
          refine ⟨h1, h2, by simp only; omega, fun hc => ?_⟩
          rw [hcapc u l hc (by rw [hl]; rfl) h1]
          exact h4 hc
    · simp only [hlow]; exact i.tok
    · intro u u' h h1 h2
      rcases hbmp h1 with ⟨e, e1⟩ | ⟨e, h1⟩ <;> rcases hbmp h2 with ⟨e', e2⟩ | ⟨e', h2⟩
      · rw [e, e']
      · have := hlt h2; omega
      · have := hlt h1; omega
      · exact i.bmp u u' h h1 h2
  | .bumped l0 h0 =>
    obtain ⟨hl0, hl0', hh0, hcap0⟩ := thT.dng' l0 h0 hp
    have ha := fa (by rw [hp]; intro h; cases h)
    have hnew : ∀ {u}, (upd s.pc t .idle u).bumped? ≠ some h0 := by
      intro u hu
      obtain ⟨hne, hu⟩ := upd_idle_bumped hu
      exact hne (i.bmp u t h0 hu (by rw [hp]; rfl))
    have hnd : (enc l0 h0 :: s.out).Nodup := by
      refine List.nodup_cons.2 ⟨fun hx => ?_, i.nodup⟩
      rcases i.out _ hx with ⟨l, h, he, hl, hh⟩ | ⟨l, h, he, h1, h2, h3, h4⟩
      · obtain ⟨rfl, rfl⟩ := enc_inj (by omega) (by omega) he
        omega
      · obtain ⟨rfl, rfl⟩ := enc_inj (by omega) (by omega) he
        exact h4 t (by rw [hp]; rfl)
    have hbmp : ∀ u u' h, (upd s.pc t .idle u).bumped? = some h → (upd s.pc t .idle u').bumped? = some h → u = u' :=
      fun u u' h h1 h2 => i.bmp u u' h (upd_idle_bumped h1).2 (upd_idle_bumped h2).2
    simp only
    by_cases hlow : s.low < DANGER
    · simp only [if_pos hlow]
      refine ⟨H0, cap, cur, ⟨i.h0, i.capLe, i.capEq, hnd, ?_, ?_, ?_, hbmp⟩⟩
      · intro x hx
        rcases List.mem_cons.1 hx with rfl | hx
        · right
          exact ⟨l0, h0, rfl, hl0, hl0', hh0, fun u => hnew⟩
        · rcases i.out x hx with ⟨l, h, hx, hl, hh⟩ | ⟨l, h, hx, h1, h2, h3, h4⟩
          · left
            refine ⟨l, h, hx, hl, hh.imp_right ?_⟩
            rintro ⟨h1, h2, h3⟩
            exact ⟨h1, h2, fun u hu hc => h3 u hu (upd_idle_low hc).2⟩
          · right
            exact ⟨l, h, hx, h1, h2, h3, fun u hc => h4 u (upd_idle_bumped hc).2⟩
      · intro u
        by_cases e : u = t
        · subst e; simp only [upd_same]; exact idle_ok ..
        · have thU := i.th u
          simp only [upd_ne _ _ e]
          exact ⟨thU.now, thU.old, thU.nrm, thU.nrm', thU.dng, thU.dng'⟩
      · exact fun u u' l hu hu' h1 h2 => i.tok u u' l hu hu' (upd_idle_low h1).2 (upd_idle_low h2).2
    · -- the low word is rewound: a new epoch
      have hc : cur t := by
        apply Classical.byContradiction
        intro hn
        have := (thT.old hn l0 (by rw [hp]; rfl)).1
        omega
      have hgt := thT.now hc l0 (by rw [hp]; rfl)
      have hcap := hcap0 hc
      simp only [if_neg hlow]
      refine ⟨s.high, s.high, fun _ => False, ⟨Nat.le_refl _, Nat.le_refl _, fun _ => rfl, hnd, ?_, ?_, ?_, hbmp⟩⟩
      · intro x hx
        rcases List.mem_cons.1 hx with rfl | hx
        · right
          exact ⟨l0, h0, rfl, hl0, hl0', hh0, fun u => hnew⟩
        · rcases i.out x hx with ⟨l, h, hx, hl, hh⟩ | ⟨l, h, hx, h1, h2, h3, h4⟩
          · left
            refine ⟨l, h, hx, hl, .inl ?_⟩
            have := i.h0
            rcases hh with hh | ⟨_, hh, _⟩ <;> omega
          · right
            exact ⟨l, h, hx, h1, h2, h3, fun u hc => h4 u (upd_idle_bumped hc).2⟩
      · intro u
        by_cases e : u = t
        · subst e; simp only [upd_same]; exact idle_ok ..
        · have thU := i.th u
          simp only [upd_ne _ _ e]
          refine ⟨fun h => h.elim, ?_, thU.nrm, ?_, thU.dng, ?_⟩
          · intro _ l hl
            refine ⟨Nat.zero_le _, fun hlD => ?_⟩
            by_cases hcu : cur u
            · have := thU.now hcu l hl; simp only; omega
            · have := (thU.old hcu l hl).2 hlD; simp only; omega
          · intro l h hl; exact ⟨(thU.nrm' l h hl).1, fun h => h.elim⟩
          · intro l h hl
            obtain ⟨h1, h2, h3, _⟩ := thU.dng' l h hl
            exact ⟨h1, h2, h3, fun h => h.elim⟩
      · exact fun u u' l hu => hu.elim

theorem init_inv : Inv init 0 0 (fun _ => False) :=
  ⟨Nat.le_refl _, Nat.le_refl _, fun _ => rfl, List.nodup_nil, fun x hx => (by cases hx), fun t => idle_ok .., fun _ _ _ h => h.elim,
    fun t t' h hb => (by cases hb)⟩

theorem run_inv (sched : List Nat) : ∀ {s H0 cap cur}, Inv s H0 cap cur → FairRun s sched →
    ∃ H0 cap cur, Inv (run s sched) H0 cap cur := by
  induction sched with
  | nil => intro s H0 cap cur i _; exact ⟨_, _, _, i⟩
  | cons t ts ih =>
    intro s H0 cap cur i hf
    obtain ⟨_, _, _, i'⟩ := step_inv i t hf.1
    exact ih i' hf.2

/-- **C29** (partial) In every interleaving of any number of threads in which no call is overtaken, while in progress, by `DANGER`
(about 4.29 billion) calls of other threads, and neither 32-bit word overflows, all identifiers are distinct. Missing: calls that
stall for longer, for which the claim is false (`C29_violation_stall`). -/
theorem C29_unique_partial (sched : List Nat) (h : FairRun init sched) : (run init sched).out.Nodup := by
  obtain ⟨_, _, _, i⟩ := run_inv sched init_inv h
  exact i.nodup

/-- Everything is bounded by the number of steps. -/
structure Small (s : State) (n : Nat) : Prop where
  low : s.low ≤ n
  high : s.high ≤ n
  age : ∀ t, s.age t ≤ n

theorem small_step {s : State} {n : Nat} (h : Small s n) (t : Nat) : Small (step s t) (n + 1) := by
  have hm : ∀ a, a ≤ n → (a + 1) % W ≤ n + 1 := fun a ha => Nat.le_trans (Nat.mod_le _ _) (by omega)
  unfold step
  obtain ⟨h1, h2, h3⟩ := h
  have h3' : ∀ u, s.age u ≤ n + 1 := fun u => Nat.le_succ_of_le (h3 u)
  match s.pc t with
  | .idle => exact ⟨hm _ h1, by simp only; omega, fun u => by simp only; split; omega; have := h3 u; omega⟩
  | .fetched l => exact ⟨by simp only; omega, by simp only; omega, h3'⟩
  | .loaded l h => simp only; split <;> exact ⟨by simp only; omega, by simp only; omega, h3'⟩
  | .danger l => exact ⟨by simp only; omega, hm _ h2, h3'⟩
  | .bumped l h => exact ⟨by simp only; split <;> omega, by simp only; omega, h3'⟩

theorem small_fair (sched : List Nat) : ∀ {s : State} {n : Nat}, Small s n → n + sched.length < DANGER → FairRun s sched := by
  induction sched with
  | nil => intros; trivial
  | cons t ts ih =>
    intro s n h hn
    simp only [List.length_cons] at hn
    have hD := danger_lt
    refine ⟨⟨fun _ => Nat.lt_of_le_of_lt (h.age t) (by omega), ?_, ?_⟩, ih (small_step h t) (by omega)⟩
    · have := h.low; omega
    · have := h.high; omega

/-- **C29** Every interleaving of fewer than `DANGER` atomic steps (over a billion identifiers), with no assumption on stalls. -/
theorem C29_first_billion (sched : List Nat) (h : sched.length < DANGER) : (run init sched).out.Nodup :=
  C29_unique_partial sched (small_fair sched (n := 0) ⟨Nat.le_refl _, Nat.le_refl _, fun _ => Nat.le_refl _⟩ (by omega))

/-- Two interleaved calls. -/
example : (run init [0, 1, 0, 1, 1, 0]).out = [0, 1] := by decide

/-- Shape of the state when only thread 0 runs; `n` steps were made. -/
def Seq (s : State) (n : Nat) : Prop :=
  s.age 0 = 0 ∧
  match s.pc 0 with
  | .idle => s.low ≤ DANGER ∧ s.high * DANGER + s.low ≤ n
  | .fetched _ => s.low ≤ DANGER ∧ s.high * DANGER + s.low ≤ n
  | .loaded _ _ => s.low ≤ DANGER ∧ s.high * DANGER + s.low ≤ n
  | .danger _ => s.low = DANGER + 1 ∧ s.high * DANGER + s.low ≤ n
  | .bumped _ h => s.low = DANGER + 1 ∧ s.high = h + 1 ∧ h * DANGER + s.low ≤ n

theorem seq_step {s : State} {n : Nat} (h : Seq s n) (hn : n < 2 ^ 63) : Fair s 0 ∧ Seq (step s 0) (n + 1) := by
  obtain ⟨ha, hs⟩ := h
  have hD : DANGER = 4293918720 := rfl
  have hW : W = 4294967296 := rfl
  have hf : s.low ≤ DANGER + 1 → s.high + 1 < W → Fair s 0 := fun h1 h2 => ⟨fun _ => by rw [ha]; omega, by omega, h2⟩
  match hp : s.pc 0 with
  | .idle =>
    rw [hp] at hs
    simp only [hD] at hs
    refine ⟨hf (by omega) (by omega), ?_⟩
    simp only [Seq, step, hp, upd_same, if_true, true_and]
    rw [Nat.mod_eq_of_lt (by omega)]
    by_cases hl : s.low < DANGER
    · rw [if_pos hl]; simp only [hD]; omega
    · rw [if_neg hl]; simp only [hD]; omega
  | .fetched l =>
    rw [hp] at hs
    simp only [hD] at hs
    refine ⟨hf (by omega) (by omega), ?_⟩
    simp only [Seq, step, hp, upd_same, ha, true_and, hD]
    omega
  | .loaded l h =>
    rw [hp] at hs
    simp only [hD] at hs
    refine ⟨hf (by omega) (by omega), ?_⟩
    by_cases hr : s.low < l ∨ s.low ≥ DANGER
    · have e : step s 0 = { s with pc := upd s.pc 0 .idle } := by simp only [step, hp]; rw [if_pos hr]
      rw [e]; simp only [Seq, upd_same, ha, true_and, hD]; omega
    · have e : step s 0 = { s with pc := upd s.pc 0 .idle, out := enc l h :: s.out } := by simp only [step, hp]; rw [if_neg hr]
      rw [e]; simp only [Seq, upd_same, ha, true_and, hD]; omega
  | .danger l =>
    rw [hp] at hs
    simp only [hD] at hs
    refine ⟨hf (by omega) (by omega), ?_⟩
    simp only [Seq, step, hp, upd_same, ha, true_and, hD]
    rw [Nat.mod_eq_of_lt (by omega)]
    omega
  | .bumped l h =>
    rw [hp] at hs
    simp only [hD] at hs
    refine ⟨hf (by omega) (by omega), ?_⟩
    simp only [Seq, step, hp, upd_same, ha, true_and]
    rw [if_neg (by omega)]
    rw [hD]
    omega

/-- **C29** A single thread gets distinct identifiers for 2^63 steps, across any number of rewinds of the low word. -/
theorem C29_sequential (n : Nat) (hn : n < 2 ^ 63) : (run init (List.replicate n 0)).out.Nodup := by
  apply C29_unique_partial
  have : ∀ (k m : Nat) (s : State), Seq s m → m + k < 2 ^ 63 → FairRun s (List.replicate k 0) := by
    intro k
    induction k with
    | zero => intros; trivial
    | succ k ih =>
      intro m s hs hm
      obtain ⟨hf, hs'⟩ := seq_step hs (by omega)
      exact ⟨hf, ih (m + 1) _ hs' (by omega)⟩
  exact this n 0 init ⟨rfl, by simp [init]⟩ (by omega)

/-! ## The claim fails when a thread stalls -/

/-- Three steps of thread 1 below the danger zone hand out one identifier. -/
theorem run3 {s : State} (h1 : s.pc 1 = .idle) (hl : s.low + 1 < DANGER) :
    run s [1, 1, 1] = { s with
      low := s.low + 1
      pc := upd (upd (upd s.pc 1 (.fetched s.low)) 1 (.loaded s.low s.high)) 1 .idle
      age := fun u => if u = 1 then 0 else s.age u + 1
      out := enc s.low s.high :: s.out } := by
  have hD := danger_lt
  simp only [run, List.foldl_cons, List.foldl_nil]
  have e1 : step s 1 = { s with low := s.low + 1, pc := upd s.pc 1 (.fetched s.low), age := fun u => if u = 1 then 0 else s.age u + 1 } := by
    simp only [step, h1, if_pos (show s.low < DANGER by omega), Nat.mod_eq_of_lt (show s.low + 1 < W by omega)]
  rw [e1]
  simp only [step, upd_same]
  rw [if_neg (by omega)]

theorem run_calls (n : Nat) : ∀ s : State, s.pc 1 = .idle → s.pc 0 = .fetched 0 → s.low + n < DANGER →
    let r := run s (List.replicate (3 * n) 1)
    r.pc 1 = .idle ∧ r.pc 0 = .fetched 0 ∧ r.low = s.low + n ∧ r.high = s.high := by
  induction n with
  | zero => intro s h1 h0 _; exact ⟨h1, h0, rfl, rfl⟩
  | succ n ih =>
    intro s h1 h0 hl
    have e : run s (List.replicate (3 * (n + 1)) 1) = run (run s [1, 1, 1]) (List.replicate (3 * n) 1) := by
      rw [show 3 * (n + 1) = 3 + 3 * n by omega, ← List.replicate_append_replicate]
      simp only [run, List.foldl_append]; rfl
    simp only [e]
    rw [run3 h1 (by omega)]
    have := ih { s with
      low := s.low + 1
      pc := upd (upd (upd s.pc 1 (.fetched s.low)) 1 (.loaded s.low s.high)) 1 .idle
      age := fun u => if u = 1 then 0 else s.age u + 1
      out := enc s.low s.high :: s.out } (by simp only [upd_same]) (by simp only; rw [upd_ne _ _ (by decide), upd_ne _ _ (by decide), upd_ne _ _ (by decide)]; exact h0) (by simp only; omega)
    obtain ⟨a, b, c, d⟩ := this
    exact ⟨a, b, by rw [c]; simp only; omega, d⟩

/-- **C29** violation: a thread that stalls after its increment while another one makes a whole round of calls is given an identifier
that is handed out again. -/
theorem C29_violation_stall : ∃ sched, ¬ (run init sched).out.Nodup := by
  have hD : DANGER = 4293918720 := rfl
  have hW : W = 4294967296 := rfl
  obtain ⟨n, hn⟩ : ∃ n, n + 2 = DANGER := ⟨4293918718, rfl⟩
  -- thread 0 increments the low word, thread 1 makes calls up to the edge of the danger zone; one more call ends in a retry, then
  -- the danger zone, the rewind, and thread 0 wakes up
  refine ⟨0 :: List.replicate (3 * n) 1 ++ [1, 1, 1, 1, 1, 1, 0, 0, 1, 1, 1], ?_⟩
  obtain ⟨a1, b1, c1, d1⟩ := run_calls n (step init 0) rfl rfl (by show 1 + n < DANGER; omega)
  have e : run init (0 :: List.replicate (3 * n) 1 ++ [1, 1, 1, 1, 1, 1, 0, 0, 1, 1, 1]) =
      run (run (step init 0) (List.replicate (3 * n) 1)) [1, 1, 1, 1, 1, 1, 0, 0, 1, 1, 1] := by
    simp only [run, List.foldl_append, List.foldl_cons]
  rw [e]
  clear e
  generalize run (step init 0) (List.replicate (3 * n) 1) = s at a1 b1 c1 d1 ⊢
  have c1' : s.low = DANGER - 1 := by rw [c1]; show 1 + n = _; omega
  have d1' : s.high = 0 := d1
  have f1 : step s 1 = { s with low := DANGER, pc := upd s.pc 1 (.fetched (DANGER - 1)), age := fun u => if u = 1 then 0 else s.age u + 1 } := by
    simp only [step, a1, c1', if_pos (show DANGER - 1 < DANGER by omega), Nat.mod_eq_of_lt (show DANGER - 1 + 1 < W by omega)]
    rfl
  simp only [run, List.foldl_cons, List.foldl_nil, f1]
  simp only [step, upd_same, d1', Nat.le_refl, or_true, if_true, ge_iff_le, Nat.lt_irrefl, if_false]
  have e1 : (DANGER + 1) % W = DANGER + 1 := by rw [hD, hW]
  have e2 : (0 + 1) % W = 1 := by rw [hW]
  have e3 : ¬ (DANGER + 1 < DANGER) := by omega
  have e4 : ∀ (f : Nat → PC) x, upd f 1 x 0 = f 0 := fun f x => upd_ne _ _ (by decide)
  have e5 : ∀ (f : Nat → PC) x, upd f 0 x 1 = f 1 := fun f x => upd_ne _ _ (by decide)
  simp only [e1, e2, e3, e4, e5, upd_same, b1, if_false]
  have e6 : (0 : Nat) < DANGER := by omega
  have e7 : ¬ (DANGER ≤ 0) := by omega
  have e8 : ¬ (DANGER ≤ 1) := by omega
  have e9 : ¬ ((1 : Nat) < 0) := by omega
  simp only [e6, e7, e8, e9, e4, e5, upd_same, if_true, if_false, Nat.lt_irrefl, or_self]
  intro h
  exact (List.nodup_cons.1 h).1 (List.mem_cons_self ..)

end Fundsp.Ids
