import Verif.Net.Rate
import Verif.Net.Block

/-!
# C88: one sample rate for the whole net

Every unit that plays in a net runs at the sample rate of the net. A unit tells the rate it runs at by an arbitrary function `rate` with the laws
`Tells`: `set_sample_rate` sets it and nothing else changes it. `tag` equips any family of units with such a function, by recording the last rate
that was set beside the unit.
-/
namespace Fundsp.Net
variable {U α : Type}

/-! ## Specification -/

/-- Units that record the last sample rate they were given. Everything else is done by the unit. -/
def tag (S : Units U α) : Units (U × α) α where
  toArith := S.toArith
  ins := fun u => S.ins u.1
  outs := fun u => S.outs u.1
  setSR := fun r u => (S.setSR r u.1, r)
  reset := fun u => (S.reset u.1, u.2)
  ping := fun p h u => let r := S.ping p h u.1; ((r.1, u.2), r.2)
  utick := fun u x => let r := S.utick u.1 x; ((r.1, u.2), r.2)
  binop := fun o => (S.binop o, S.zero)
  const := fun x => (S.const x, S.zero)
  dummy := fun i o => (S.dummy i o, S.zero)

theorem tag_tells (S : Units U α) : Tells (tag S) Prod.snd := ⟨fun _ _ => rfl, fun _ => rfl, fun _ _ _ => rfl, fun _ _ => rfl⟩

theorem tag_lawful {S : Units U α} (h : S.Lawful) : (tag S).Lawful :=
  ⟨fun _ _ => h.ins_setSR _ _, fun _ _ => h.outs_setSR _ _, fun _ => h.ins_reset _, fun _ => h.outs_reset _, fun _ _ _ => h.ins_ping _ _ _,
    fun _ _ _ => h.outs_ping _ _ _, fun _ _ => h.ins_tick _ _, fun _ _ => h.outs_tick _ _, fun _ _ => h.tick_length _ _, h.ins_binop,
    h.outs_binop, h.ins_const, h.outs_const, h.ins_dummy, h.outs_dummy⟩

/-- Nets built in a way that keeps to one rate: new nets, wrapped units, clones, any edits and runs, operators on two nets of the same rate,
negation of a net that has the default rate, frontends and messages. The rate is changed only while no unit waits to be faded in. -/
inductive OneRate [DecidableEq α] (E : Env U α) : NodeId → Net U α → Prop
  | new (n : NodeId) (sr : α) (i o : Nat) : OneRate E n (Net.new sr i o)
  | wrap {n sr u net} (h : Net.wrap E.S sr n u = some net) : OneRate E (n + 1) net
  | scalar {n sr k x net} (h : Net.scalar E.S sr n k x = some net) : OneRate E (n + 1) net
  | later {n m net} (h : OneRate E n net) (hm : n ≤ m) : OneRate E m net
  | edit {n m net net'} (h : OneRate E n net) (e : Edit U α) (ha : e.apply E n net = some (net', m))
      (hs : ∀ r, e = .setSampleRate r → Settled net ∨ net.sampleRate = r) : OneRate E m net'
  | op {n m a b c} (ha : OneRate E n a) (hb : OneRate E n b) (hr : a.sampleRate = b.sampleRate) (o : Op2)
      (h : o.apply E a b n = some (c, m)) : OneRate E m c
  | neg {n m a c sr} (ha : OneRate E n a) (hr : a.sampleRate = sr) (h : Net.neg E.S sr a n = some (c, m)) : OneRate E m c
  | clone {n net} (h : OneRate E n net) : OneRate E n (clone net)
  | front {n f f' M} (h : OneRate E n f) (hs : Sent E f f' M) : OneRate E n f'
  | sent {n f f' M} (h : OneRate E n f) (hs : Sent E f f' M) : OneRate E n M

/-- The last sample rate that is set by a list of calls, `sr` if there is none. -/
def lastRate (sr : α) : List (Edit U α) → α
  | [] => sr
  | .setSampleRate r :: es => lastRate r es
  | _ :: es => lastRate sr es

/-! ## Lemmas -/

theorem heard_foldlM {n : NodeId} (l : List Nat) : ∀ {a b : Net U α}, l.foldlM (fun net i => connectOutput net n 0 i) a = some b → Heard a b := by
  induction l with
  | nil => intro a b h; cases h; exact .refl _
  | cons i l ih =>
    intro a b h
    rw [List.foldlM_cons, Option.bind_eq_bind, Option.bind_eq_some_iff] at h
    obtain ⟨c, hc, h⟩ := h
    exact (heard_connectOutput hc).trans (ih h)

theorem at_new (rate : U → α) (sr : α) (i o : Nat) : AtRate rate (Net.new sr i o : Net U α) :=
  ⟨fun v hv => (nomatch hv), fun d hd => (nomatch hd)⟩

theorem at_wrap {S : Units U α} {rate : U → α} (hT : Tells S rate) {sr : α} {n : NodeId} {u : U} {net : Net U α} (h : wrap S sr n u = some net) :
    AtRate rate net ∧ net.sampleRate = sr := by
  have hp := at_push hT (at_new rate sr (S.ins u) (S.outs u)) n u
  simp only [wrap, Option.bind_eq_bind] at h
  have key : ∀ {a b : Net U α}, Heard (push S (new sr (S.ins u) (S.outs u)) n u) a → (if a.outputs > 0 then pipeOutput a n else some a) = some b →
      AtRate rate b ∧ b.sampleRate = sr := by
    intro a b hw hb
    split at hb
    · have := hw.trans (heard_pipeOutput hb)
      exact ⟨this.at hp, this.rate⟩
    · cases hb; exact ⟨hw.at hp, hw.rate⟩
  by_cases hi : (push S (new sr (S.ins u) (S.outs u)) n u).inputs > 0
  · rw [if_pos hi, Option.bind_eq_some_iff] at h
    obtain ⟨a, ha, h⟩ := h
    exact key (heard_pipeInput ha) h
  · rw [if_neg hi] at h
    exact key (.refl _) h

theorem at_scalar {S : Units U α} {rate : U → α} (hT : Tells S rate) {sr : α} {n : NodeId} {k : Nat} {x : α} {net : Net U α}
    (h : scalar S sr n k x = some net) : AtRate rate net ∧ net.sampleRate = sr := by
  have hw := heard_foldlM _ h
  exact ⟨hw.at (at_push hT (at_new rate sr 0 k) n _), hw.rate⟩

theorem at_fadeIn {S : Units U α} {rate : U → α} (hT : Tells S rate) {net net' : Net U α} (h : AtRate rate net) {id : NodeId} {f : Fade} {t : α}
    {u : U} (he : fadeIn S net id f t u = some net') : AtRate rate net' := by
  unfold fadeIn at he
  exact at_crossfade hT (at_push hT h _ _) he

theorem at_thru {rate : U → α} {net : Net U α} (h : AtRate rate net) : AtRate rate (thru net) :=
  (heard_same (a := net) (b := thru net) rfl rfl rfl).at h

theorem at_edit [DecidableEq α] {E : Env U α} {rate : U → α} (hT : Tells E.S rate) {n m : NodeId} {net net' : Net U α} (h : AtRate rate net)
    (e : Edit U α) (ha : e.apply E n net = some (net', m)) (hs : ∀ r, e = .setSampleRate r → Settled net ∨ net.sampleRate = r) :
    AtRate rate net' := by
  cases e <;> simp only [Edit.apply, Option.map_eq_some_iff, Option.some.injEq, Prod.mk.injEq] at ha
  case push u => obtain ⟨rfl, _⟩ := ha; exact at_push hT h _ _
  case fadeIn f t u => obtain ⟨x, hx, rfl, _⟩ := ha; exact at_fadeIn hT h hx
  case chain u => obtain ⟨x, hx, rfl, _⟩ := ha; exact at_chain hT h hx
  case setSource a b c => obtain ⟨x, hx, rfl, _⟩ := ha; exact (heard_setSource hx).at h
  case setOutputSource a b => obtain ⟨x, hx, rfl, _⟩ := ha; exact (heard_setOutputSource hx).at h
  case remove a => obtain ⟨x, hx, rfl, _⟩ := ha; exact (heard_remove hx).at h
  case removeLink a => obtain ⟨x, hx, rfl, _⟩ := ha; exact (heard_remove hx).at h
  case replace a u => obtain ⟨x, hx, rfl, _⟩ := ha; exact at_replace hT h hx
  case crossfade a f t u => obtain ⟨x, hx, rfl, _⟩ := ha; exact at_crossfade hT h hx
  case connect => obtain ⟨x, hx, rfl, _⟩ := ha; exact (heard_connect hx).at h
  case disconnect => obtain ⟨x, hx, rfl, _⟩ := ha; exact (heard_disconnect hx).at h
  case connectInput => obtain ⟨x, hx, rfl, _⟩ := ha; exact (heard_connectInput hx).at h
  case pipeInput => obtain ⟨x, hx, rfl, _⟩ := ha; exact (heard_pipeInput hx).at h
  case connectOutput => obtain ⟨x, hx, rfl, _⟩ := ha; exact (heard_connectOutput hx).at h
  case disconnectOutput => obtain ⟨x, hx, rfl, _⟩ := ha; exact (heard_disconnectOutput hx).at h
  case pipeOutput => obtain ⟨x, hx, rfl, _⟩ := ha; exact (heard_pipeOutput hx).at h
  case passThrough => obtain ⟨x, hx, rfl, _⟩ := ha; exact (heard_passThrough hx).at h
  case pipeAll => obtain ⟨x, hx, rfl, _⟩ := ha; exact (heard_pipeAll hx).at h
  case thru => obtain ⟨rfl, _⟩ := ha; exact at_thru h
  case error => obtain ⟨rfl, _⟩ := ha; exact at_ready hT E.seed E.hash0 h
  case tick x => obtain ⟨rfl, _⟩ := ha; exact at_tick hT E.seed E.hash0 h x
  case reset => obtain ⟨rfl, _⟩ := ha; exact at_reset hT E.seed E.hash0 h
  case setSampleRate r => obtain ⟨rfl, _⟩ := ha; exact at_setSampleRate hT E.seed E.hash0 h r (hs r rfl)

theorem crossfade_rate {S : Units U α} {net net' : Net U α} {id : NodeId} {f : Fade} {t : α} {u : U} (he : crossfade S net id f t u = some net') :
    net'.sampleRate = net.sampleRate := by
  simp only [crossfade, Option.bind_eq_bind, Option.bind_eq_some_iff] at he
  obtain ⟨i, _, v, hv, he⟩ := he
  split at he
  · split at he <;> (cases he; rfl)
  · cases he

theorem chain_rate {S : Units U α} {net net' : Net U α} {id : NodeId} {u : U} (he : chain S net id u = some net') :
    net'.sampleRate = net.sampleRate := by
  simp only [chain, Option.bind_eq_bind, Option.bind_eq_some_iff] at he
  obtain ⟨i, _, he⟩ := he
  by_cases h1 : (push S net id u).vertex.length = 1
  · rw [if_pos h1] at he
    by_cases h0 : (push S net id u).inputs > 0
    · rw [if_pos h0, Option.bind_eq_some_iff] at he
      obtain ⟨y, hy, he⟩ := he
      exact (heard_pipeOutput he).rate.trans (heard_pipeInput hy).rate
    · rw [if_neg h0] at he
      exact (heard_pipeOutput he).rate
  · rw [if_neg h1] at he
    exact (heard_pipeOutput he).rate

theorem edit_rate [DecidableEq α] {E : Env U α} {n m : NodeId} {net net' : Net U α} (e : Edit U α) (ha : e.apply E n net = some (net', m)) :
    net'.sampleRate = lastRate net.sampleRate [e] := by
  cases e <;> simp only [Edit.apply, Option.map_eq_some_iff, Option.some.injEq, Prod.mk.injEq] at ha <;> simp only [lastRate]
  case push u => obtain ⟨rfl, _⟩ := ha; rfl
  case fadeIn f t u => obtain ⟨x, hx, rfl, _⟩ := ha; unfold fadeIn at hx; have := crossfade_rate hx; exact this
  case chain u => obtain ⟨x, hx, rfl, _⟩ := ha; exact chain_rate hx
  case setSource a b c => obtain ⟨x, hx, rfl, _⟩ := ha; exact (heard_setSource hx).rate
  case setOutputSource a b => obtain ⟨x, hx, rfl, _⟩ := ha; exact (heard_setOutputSource hx).rate
  case remove a => obtain ⟨x, hx, rfl, _⟩ := ha; exact (heard_remove hx).rate
  case removeLink a => obtain ⟨x, hx, rfl, _⟩ := ha; exact (heard_remove hx).rate
  case replace a u =>
    obtain ⟨x, hx, rfl, _⟩ := ha
    simp only [replace, Option.bind_eq_bind, Option.bind_eq_some_iff] at hx
    obtain ⟨i, _, v, hv, hx⟩ := hx
    split at hx
    · cases hx; rfl
    · cases hx
  case crossfade a f t u => obtain ⟨x, hx, rfl, _⟩ := ha; exact crossfade_rate hx
  case connect => obtain ⟨x, hx, rfl, _⟩ := ha; exact (heard_connect hx).rate
  case disconnect => obtain ⟨x, hx, rfl, _⟩ := ha; exact (heard_disconnect hx).rate
  case connectInput => obtain ⟨x, hx, rfl, _⟩ := ha; exact (heard_connectInput hx).rate
  case pipeInput => obtain ⟨x, hx, rfl, _⟩ := ha; exact (heard_pipeInput hx).rate
  case connectOutput => obtain ⟨x, hx, rfl, _⟩ := ha; exact (heard_connectOutput hx).rate
  case disconnectOutput => obtain ⟨x, hx, rfl, _⟩ := ha; exact (heard_disconnectOutput hx).rate
  case pipeOutput => obtain ⟨x, hx, rfl, _⟩ := ha; exact (heard_pipeOutput hx).rate
  case passThrough => obtain ⟨x, hx, rfl, _⟩ := ha; exact (heard_passThrough hx).rate
  case pipeAll => obtain ⟨x, hx, rfl, _⟩ := ha; exact (heard_pipeAll hx).rate
  case thru => obtain ⟨rfl, _⟩ := ha; rfl
  case error => obtain ⟨rfl, _⟩ := ha; exact ready_rate (S := E.S) E.seed E.hash0 net
  case tick x => obtain ⟨rfl, _⟩ := ha; exact ready_rate (S := E.S) E.seed E.hash0 net
  case reset => obtain ⟨rfl, _⟩ := ha; exact ready_rate (S := E.S) E.seed E.hash0 { net with vertex := _ }
  case setSampleRate r => obtain ⟨rfl, _⟩ := ha; exact setSampleRate_rate E.S E.seed E.hash0 net r

theorem resolve_rate {a b c : Net U α} (h : resolveFrontend a b = some c) : c.sampleRate = a.sampleRate := by
  unfold resolveFrontend at h
  split at h
  · cases h
  · split at h
    · cases h; rfl
    · cases h; rfl

theorem pushOps_rate {S : Units U α} (op : Op) (k : Nat) (off i : Nat) (net : Net U α) (next : NodeId) :
    (pushOps S op off i k net next).1.sampleRate = net.sampleRate := by
  induction k generalizing i net next with
  | zero => rfl
  | succ k ih => exact ih (i + 1) _ (next + 1)

theorem op_rate {E : Env U α} {a b c : Net U α} {n m : NodeId} (o : Op2) (h : o.apply E a b n = some (c, m)) : c.sampleRate = a.sampleRate := by
  cases o with
  | pipe =>
    simp only [Op2.apply, pipe] at h
    split at h
    · cases h
    · obtain ⟨x, hx, hh⟩ := Option.map_eq_some_iff.1 h
      cases hh; have := resolve_rate hx; exact this
  | stack =>
    simp only [Op2.apply, stack] at h
    obtain ⟨x, hx, hh⟩ := Option.map_eq_some_iff.1 h
    cases hh; have := resolve_rate hx; exact this
  | branch =>
    simp only [Op2.apply, branch] at h
    split at h
    · cases h
    · obtain ⟨x, hx, hh⟩ := Option.map_eq_some_iff.1 h
      cases hh; have := resolve_rate hx; exact this
  | bus =>
    simp only [Op2.apply, bus] at h
    split at h
    · cases h
    · split at h
      · cases h
      · obtain ⟨x, hx, hh⟩ := Option.map_eq_some_iff.1 h
        cases hh
        exact ((resolve_rate hx).trans (heard_connectOps2 ..).rate).trans (pushOps_rate ..)
  | binary op =>
    simp only [Op2.apply, binary] at h
    split at h
    · cases h
    · obtain ⟨x, hx, hh⟩ := Option.map_eq_some_iff.1 h
      cases hh
      exact ((resolve_rate hx).trans (heard_connectOps2 ..).rate).trans (pushOps_rate ..)

theorem at_clone {rate : U → α} {net : Net U α} (h : AtRate rate net) : AtRate rate (clone net) := ⟨h.1, fun d hd => (nomatch hd)⟩

theorem at_sent {E : Env U α} {rate : U → α} (hT : Tells E.S rate) {f f' M : Net U α} (h : AtRate rate f) (hs : Sent E f f' M) :
    (AtRate rate f' ∧ AtRate rate M) ∧ f'.sampleRate = f.sampleRate ∧ M.sampleRate = f.sampleRate := by
  rcases hs with hs | hs
  · unfold backend at hs
    split at hs
    · cases hs
    · have hr : AtRate rate (ready E.S E.seed E.hash0 { f with hasBackend := true, backendInputs := f.inputs, backendOutputs := f.outputs }) :=
        at_ready hT E.seed E.hash0 (net := { f with hasBackend := true, backendInputs := f.inputs, backendOutputs := f.outputs }) h
      have hq : (ready E.S E.seed E.hash0 { f with hasBackend := true, backendInputs := f.inputs, backendOutputs := f.outputs }).sampleRate =
        f.sampleRate := ready_rate E.seed E.hash0 _
      cases hs
      exact ⟨⟨hr, at_clone hr⟩, hq, hq⟩
  · unfold commit at hs
    split at hs
    · cases hs
    · split at hs
      · cases hs
      · split at hs
        · cases hs
        · have hr : AtRate rate (ready E.S E.seed E.hash0 f) := at_ready hT E.seed E.hash0 h
          have hq : (ready E.S E.seed E.hash0 f).sampleRate = f.sampleRate := ready_rate E.seed E.hash0 _
          cases hs
          refine ⟨⟨⟨hr.1, fun d hd => (nomatch hd)⟩, ⟨hr.1, fun d hd => ?_⟩⟩, hq, hq⟩
          obtain ⟨e, he, hd⟩ := List.mem_filterMap.1 hd
          obtain ⟨i, _, rfl⟩ := Option.map_eq_some_iff.1 hd
          exact hr.2 e he

theorem neg_eq {S : Units U α} {sr : α} {a c : Net U α} {n m : NodeId} (h : Net.neg S sr a n = some (c, m)) :
    ∃ z, Net.scalar S sr n a.outputs S.zero = some z ∧ Net.binary S .sub z a (n + 1) = some (c, m) := by
  simp only [Net.neg, Option.bind_eq_bind, Option.bind_eq_some_iff] at h
  exact h

theorem at_oneRate [DecidableEq α] {E : Env U α} {rate : U → α} (hT : Tells E.S rate) {n : NodeId} {net : Net U α} (h : OneRate E n net) :
    AtRate rate net := by
  induction h with
  | new n sr i o => exact at_new ..
  | wrap h => exact (at_wrap hT h).1
  | scalar h => exact (at_scalar hT h).1
  | later _ _ ih => exact ih
  | edit _ e ha hs ih => exact at_edit hT ih e ha hs
  | op _ _ hr o h iha ihb => exact at_op hT iha ihb hr o h
  | neg _ hr h ih =>
    obtain ⟨z, hz, hb⟩ := neg_eq h
    obtain ⟨h1, h2⟩ := at_scalar hT hz
    exact at_op hT (E := E) h1 ih (h2.trans hr.symm) (.binary .sub) hb
  | clone _ ih => exact at_clone ih
  | front _ hs ih => exact (at_sent hT ih hs).1.1
  | sent _ hs ih => exact (at_sent hT ih hs).1.2

theorem unitOf_mem {net : Net U α} {id : NodeId} {u : U} (h : unitOf net id = some u) : ∃ v ∈ net.vertex, v.eng.unit = u := by
  simp only [unitOf, Option.bind_eq_some_iff, Option.map_eq_some_iff] at h
  obtain ⟨i, _, v, hv, rfl⟩ := h
  exact ⟨v, List.mem_of_getElem? hv, rfl⟩

/-! ## Theorems -/

/-- **C88**: in a net that was built keeping to one rate, every unit — running, being faded in, or queued — runs at the sample rate of the net.
Missing: operators on nets of different rates, negation of a net whose rate is not the default one, and rate changes while a unit waits to be
faded in; there the claim is false, see the violations below. -/
theorem C88_rates_partial [DecidableEq α] {E : Env U α} {rate : U → α} (hT : Tells E.S rate) {n : NodeId} {net : Net U α} (h : OneRate E n net) :
    (∀ v ∈ net.vertex, rate v.eng.unit = net.sampleRate ∧ (∀ u, v.eng.next.unit = some u → rate u = net.sampleRate) ∧
      ∀ u, v.eng.latest.unit = some u → rate u = net.sampleRate) ∧
    (∀ d ∈ net.editQueue, ∀ u, d.unit = some u → rate u = net.sampleRate) ∧
    ∀ id u, unitOf net id = some u → rate u = net.sampleRate := by
  have h := at_oneRate hT h
  refine ⟨h.1, h.2, fun id u hu => ?_⟩
  obtain ⟨v, hv, rfl⟩ := unitOf_mem hu
  exact (h.1 v hv).1

/-- **C88**: the sample rate of a net is the last one that was set, whatever else is done to the net. -/
theorem C88_last [DecidableEq α] {E : Env U α} (es : List (Edit U α)) {n m : NodeId} {net net' : Net U α}
    (h : runEdits E n net es = some (net', m)) : net'.sampleRate = lastRate net.sampleRate es := by
  induction es generalizing n net with
  | nil => simp only [runEdits, Option.some.injEq, Prod.mk.injEq] at h; rw [← h.1]; rfl
  | cons e es ih =>
    simp only [runEdits, Option.bind_eq_some_iff] at h
    obtain ⟨⟨x, k⟩, hx, h⟩ := h
    rw [ih h, edit_rate e hx]
    cases e <;> rfl

/-- **C88**: a combination of two nets has the rate of the first; starting a backend and committing keep the rate. -/
theorem C88_op {E : Env U α} {a b c : Net U α} {n m : NodeId} (o : Op2) (h : o.apply E a b n = some (c, m)) : c.sampleRate = a.sampleRate :=
  op_rate o h

/-- **C88**: setting a sample rate that differs from the present one sets the rate of the net and of every running unit; setting it to the
present one does nothing. -/
theorem C88_set_rate [DecidableEq α] {S : Units U α} {rate : U → α} (hT : Tells S rate) (seed : Nat → Nat) (hash0 : Nat) (net : Net U α) (r : α) :
    (setSampleRate S seed hash0 net r).sampleRate = r ∧
    (net.sampleRate ≠ r → ∀ id u, unitOf (setSampleRate S seed hash0 net r) id = some u → rate u = r) ∧
    (net.sampleRate = r → setSampleRate S seed hash0 net r = net) := by
  have hr := setSampleRate_rate S seed hash0 net r
  refine ⟨hr, fun hn id u hu => ?_, fun h => ?_⟩
  · obtain ⟨v, hv, rfl⟩ := unitOf_mem hu
    exact (unitsAt_setSampleRate hT seed hash0 hn v hv).trans hr
  · unfold setSampleRate; rw [if_pos h]

/-! ### Frontend, channel and backend -/

theorem at_recv {S : Units U α} {rate : U → α} {r : α} (m : Msg U α) (hm : ∀ n, m = .net n → AtRate rate n ∧ n.sampleRate = r)
    (hf : ∀ id f, m = .setting id f → ∀ u, rate (f u) = rate u) (st : Net U α × Option (Net U α))
    (h : (AtRate rate st.1 ∧ st.1.sampleRate = r) ∧ ∀ l, st.2 = some l → AtRate rate l ∧ l.sampleRate = r) :
    (AtRate rate (recv S st m).1 ∧ (recv S st m).1.sampleRate = r) ∧ ∀ l, (recv S st m).2 = some l → AtRate rate l ∧ l.sampleRate = r := by
  obtain ⟨h1, h2⟩ := h
  cases m with
  | net n =>
    refine ⟨?_, fun l hl => by cases hl; exact hm n rfl⟩
    simp only [recv]
    cases hl : st.2 with
    | none => exact h1
    | some l => exact ⟨at_applyForeign h1.1 (h2 l hl).1 ((h2 l hl).2.trans h1.2.symm), h1.2⟩
  | setting id f => exact ⟨⟨at_set h1.1 id (hf id f rfl), (set_rate ..).trans h1.2⟩, h2⟩

theorem at_foldRecv {S : Units U α} {rate : U → α} {r : α} (q : List (Msg U α)) (hm : ∀ n, .net n ∈ q → AtRate rate n ∧ n.sampleRate = r)
    (hf : ∀ id f, .setting id f ∈ q → ∀ u, rate (f u) = rate u) : ∀ (st : Net U α × Option (Net U α)),
    ((AtRate rate st.1 ∧ st.1.sampleRate = r) ∧ ∀ l, st.2 = some l → AtRate rate l ∧ l.sampleRate = r) →
    (AtRate rate (q.foldl (recv S) st).1 ∧ (q.foldl (recv S) st).1.sampleRate = r) ∧
      ∀ l, (q.foldl (recv S) st).2 = some l → AtRate rate l ∧ l.sampleRate = r := by
  induction q with
  | nil => intro st h; exact h
  | cons m q ih =>
    intro st h
    refine ih (fun n hn => hm n (List.mem_cons_of_mem _ hn)) (fun id f hf' => hf id f (List.mem_cons_of_mem _ hf')) _ ?_
    exact at_recv m (fun n e => hm n (e ▸ List.mem_cons_self)) (fun id f e => hf id f (e ▸ List.mem_cons_self)) st h

theorem at_handle {S : Units U α} {rate : U → α} {back : Net U α} {q : List (Msg U α)} {r : α} (hb : AtRate rate back ∧ back.sampleRate = r)
    (hm : ∀ n, .net n ∈ q → AtRate rate n ∧ n.sampleRate = r) (hf : ∀ id f, .setting id f ∈ q → ∀ u, rate (f u) = rate u) :
    AtRate rate (handle S back q) ∧ (handle S back q).sampleRate = r := by
  obtain ⟨h1, h2⟩ := at_foldRecv (S := S) q hm hf (back, none) ⟨hb, fun l hl => (nomatch hl)⟩
  simp only [handle]
  cases hl : (q.foldl (recv S) (back, none)).2 with
  | none => exact h1
  | some n =>
    obtain ⟨h3, h4⟩ := h2 n hl
    exact ⟨at_applyEdits (at_migrate h1.1 h3 (h4.trans h1.2.symm)), h4⟩

/-- A unit that processes blocks keeps its rate. -/
def TellsBlock (P : Proc U α) (rate : U → α) : Prop := ∀ u size x old, rate (P u size x old).1 = rate u

theorem engAt_process {S : Units U α} {P : Proc U α} {rate : U → α} (hP : TellsBlock P rate) {r sr : α} {e : Eng U α} (h : EngAt rate r e)
    (outs size : Nat) (x old tmp : CBuf α) : EngAt rate r (e.process S P sr outs size x old tmp).1 := by
  obtain ⟨h1, h2, h3⟩ := h
  have hu : rate (P e.unit size x old).1 = r := (hP _ _ _ _).trans h1
  unfold Eng.process
  cases hn : e.next.unit with
  | none => exact ⟨hu, h2, h3⟩
  | some n =>
    have hq : rate (P n size x tmp).1 = r := (hP _ _ _ _).trans (h2 n hn)
    simp only
    split
    · exact ⟨hq, h3, fun u hu => (nomatch hu)⟩
    · exact ⟨hu, fun u hu => by cases hu; exact hq, h3⟩

theorem at_process {S : Units U α} {P : Proc U α} {rate : U → α} (hT : Tells S rate) (hP : TellsBlock P rate) (seed : Nat → Nat) (hash0 : Nat)
    {net : Net U α} (h : AtRate rate net) (size : Nat) (x old : CBuf α) (tmp : Nat → CBuf α) :
    AtRate rate (process S P seed hash0 net size x old tmp).1 := by
  have hr : AtRate rate (ready S seed hash0 net) := at_ready hT seed hash0 h
  refine ⟨?_, hr.2⟩
  have key : ∀ (is : List Nat) (vs : List (Vertex U α)), (∀ v ∈ vs, EngAt rate (ready S seed hash0 net).sampleRate v.eng) →
      ∀ v ∈ is.foldl (procNode S P (ready S seed hash0 net).sampleRate x size tmp) vs, EngAt rate (ready S seed hash0 net).sampleRate v.eng := by
    intro is
    induction is with
    | nil => intro vs h; exact h
    | cons i is ih =>
      intro vs h
      refine ih _ ?_
      intro v hv
      rcases mem_modify hv with hv | ⟨y, hy, rfl⟩
      · exact h v hv
      · split
        · exact engAt_process hP (h y hy) ..
        · exact engAt_process hP (h y hy) ..
  exact key _ _ hr.1

/-- Frontend, channel and backend. -/
structure Sys (U α : Type) where
  front : Net U α
  chan : List (Msg U α)
  back : Net U α

/-- Executions of the two threads: calls on the frontend that do not change the rate, commits, settings that do not change the rate of a unit,
and runs of the backend, which reads the channel before it plays and after it resets (`realnet.rs:119-141`). -/
inductive Sys.Run [DecidableEq α] (E : Env U α) (P : Proc U α) (rate : U → α) (n0 : NodeId) (s0 : Sys U α) : NodeId → Sys U α → Prop
  | start : Run E P rate n0 s0 n0 s0
  | edit {n m s f'} (h : Run E P rate n0 s0 n s) (e : Edit U α) (he : e.apply E n s.front = some (f', m))
      (hs : ∀ r, e = .setSampleRate r → s.front.sampleRate = r) : Run E P rate n0 s0 m { s with front := f' }
  | commit {n s f' M} (h : Run E P rate n0 s0 n s) (hc : commit E s.front = some (f', M)) :
      Run E P rate n0 s0 n { s with front := f', chan := s.chan ++ [.net M] }
  | setting {n s} (h : Run E P rate n0 s0 n s) (id : NodeId) (f : U → U) (hf : ∀ u, rate (f u) = rate u) :
      Run E P rate n0 s0 n { s with chan := s.chan ++ [.setting id f] }
  | tick {n s} (h : Run E P rate n0 s0 n s) (x : List α) :
      Run E P rate n0 s0 n { s with chan := [], back := (tick E.S E.seed E.hash0 (handle E.S s.back s.chan) x).1 }
  | process {n s} (h : Run E P rate n0 s0 n s) (size : Nat) (x old : CBuf α) (tmp : Nat → CBuf α) :
      Run E P rate n0 s0 n { s with chan := [], back := (process E.S P E.seed E.hash0 (handle E.S s.back s.chan) size x old tmp).1 }
  | reset {n s} (h : Run E P rate n0 s0 n s) :
      Run E P rate n0 s0 n { s with chan := [], back := handle E.S (reset E.S E.seed E.hash0 s.back) s.chan }

/-- **C88** (two threads): after a backend is started, whatever is then done to the frontend and whenever the backend runs, as long as the rate
is not changed every unit in the backend, running or being faded in, stays at the rate of the net. -/
theorem C88_threads [DecidableEq α] {E : Env U α} {P : Proc U α} {rate : U → α} (hT : Tells E.S rate) (hP : TellsBlock P rate) {n0 n : NodeId}
    {f front back : Net U α} (hf : OneRate E n0 f) (hb : backend E f = some (front, back)) {s : Sys U α}
    (h : Sys.Run E P rate n0 ⟨front, [], back⟩ n s) :
    s.back.sampleRate = f.sampleRate ∧ s.front.sampleRate = f.sampleRate ∧
    (∀ v ∈ s.back.vertex, rate v.eng.unit = f.sampleRate ∧ (∀ u, v.eng.next.unit = some u → rate u = f.sampleRate) ∧
      ∀ u, v.eng.latest.unit = some u → rate u = f.sampleRate) ∧
    ∀ id u, unitOf s.back id = some u → rate u = f.sampleRate := by
  have key : (AtRate rate s.front ∧ s.front.sampleRate = f.sampleRate) ∧ (AtRate rate s.back ∧ s.back.sampleRate = f.sampleRate) ∧
      (∀ M, .net M ∈ s.chan → AtRate rate M ∧ M.sampleRate = f.sampleRate) ∧
      ∀ id g, .setting id g ∈ s.chan → ∀ u, rate (g u) = rate u := by
    induction h with
    | start =>
      obtain ⟨⟨h1, h2⟩, h3, h4⟩ := at_sent hT (at_oneRate hT hf) (Or.inl hb)
      exact ⟨⟨h1, h3⟩, ⟨h2, h4⟩, fun M hM => (nomatch hM), fun id g hg => (nomatch hg)⟩
    | edit _ e he hs ih =>
      obtain ⟨⟨h1, h2⟩, h3, h4, h5⟩ := ih
      refine ⟨⟨at_edit hT h1 e he (fun r hr => Or.inr (hs r hr)), ?_⟩, h3, h4, h5⟩
      rw [edit_rate e he]
      cases e <;> first | exact h2 | skip
      rename_i r
      exact (hs r rfl).symm.trans h2
    | commit _ hc ih =>
      obtain ⟨⟨h1, h2⟩, h3, h4, h5⟩ := ih
      obtain ⟨⟨k1, k2⟩, k3, k4⟩ := at_sent hT h1 (Or.inr hc)
      refine ⟨⟨k1, k3.trans h2⟩, h3, fun M hM => ?_, fun id g hg => ?_⟩
      · rcases List.mem_append.1 hM with hM | hM
        · exact h4 M hM
        · rw [List.mem_singleton] at hM; cases hM; exact ⟨k2, k4.trans h2⟩
      · rcases List.mem_append.1 hg with hg | hg
        · exact h5 id g hg
        · rw [List.mem_singleton] at hg; cases hg
    | setting _ id g hg ih =>
      obtain ⟨h12, h3, h4, h5⟩ := ih
      refine ⟨h12, h3, fun M hM => ?_, fun id' g' hg' => ?_⟩
      · rcases List.mem_append.1 hM with hM | hM
        · exact h4 M hM
        · rw [List.mem_singleton] at hM; cases hM
      · rcases List.mem_append.1 hg' with hg' | hg'
        · exact h5 id' g' hg'
        · rw [List.mem_singleton] at hg'; cases hg'; exact hg
    | tick _ x ih =>
      obtain ⟨h12, h3, h4, h5⟩ := ih
      obtain ⟨k1, k2⟩ := at_handle (S := E.S) h3 h4 h5
      exact ⟨h12, ⟨at_tick hT _ _ k1 x, (ready_rate (S := E.S) E.seed E.hash0 _).trans k2⟩, fun M hM => (nomatch hM), fun id g hg => (nomatch hg)⟩
    | process _ size x old tmp ih =>
      obtain ⟨h12, h3, h4, h5⟩ := ih
      obtain ⟨k1, k2⟩ := at_handle (S := E.S) h3 h4 h5
      exact ⟨h12, ⟨at_process hT hP _ _ k1 size x old tmp, (ready_rate (S := E.S) E.seed E.hash0 _).trans k2⟩, fun M hM => (nomatch hM),
        fun id g hg => (nomatch hg)⟩
    | reset _ ih =>
      obtain ⟨h12, h3, h4, h5⟩ := ih
      obtain ⟨k1, k2⟩ := at_handle (S := E.S) (r := f.sampleRate)
        ⟨at_reset hT E.seed E.hash0 h3.1, (ready_rate (S := E.S) E.seed E.hash0 { (_ : Net U α) with vertex := _ }).trans h3.2⟩ h4 h5
      exact ⟨h12, ⟨k1, k2⟩, fun M hM => (nomatch hM), fun id g hg => (nomatch hg)⟩
  obtain ⟨⟨_, h2⟩, ⟨h3, h4⟩, _, _⟩ := key
  have h3' := h3.1
  rw [h4] at h3'
  refine ⟨h4, h2, h3', fun id u hu => ?_⟩
  obtain ⟨v, hv, rfl⟩ := unitOf_mem hu
  exact (h3' v hv).1

/-- **C88** (new rate by commit): the frontend sets a new rate, and commits. When the backend has read the commit, the backend has the new rate and
every unit that runs there is at the new rate, whatever the backend played before and whatever was queued. -/
theorem C88_commit [DecidableEq α] {E : Env U α} (hS : E.S.Lawful) {rate : U → α} (hT : Tells E.S rate) {n0 n m : NodeId}
    {f0 base M0 back f g f' M : Net U α} {T : NodeId → Prop} (hw : WF E.S n0 f0) (hst : Stamped f0) (hs0 : Sent E f0 base M0)
    (hb : SameNet M0 back) (hf : Since E n0 base n f T) {r : α} (hr : f.sampleRate ≠ r)
    (he : Edit.apply E n f (.setSampleRate r) = some (g, m)) (hc : commit E g = some (f', M)) {q : List (Msg U α)} (hq : LastNet q M) :
    (handle E.S back q).sampleRate = r ∧ ∀ id u, unitOf (handle E.S back q) id = some u → rate u = r := by
  have hg : g = setSampleRate E.S E.seed E.hash0 f r := by
    simp only [Edit.apply, Option.some.injEq, Prod.mk.injEq] at he; exact he.1.symm
  have hgr : g.sampleRate = r := by rw [hg]; exact setSampleRate_rate ..
  have hgu : UnitsAt rate g := by rw [hg]; exact unitsAt_setSampleRate hT _ _ hr
  have hs := Since.edit hf (.setSampleRate r) trivial he
  obtain ⟨a1, a2, _⟩ := sent_struct hS hw hs0
  have hi := since_inv hS a1 (stamped_sent hS hw hst hs0) hs
  obtain ⟨c1, c2, c3, c4⟩ := C11_graph hS hi.wf (Or.inr hc) (a2.same hb.toSameWiring) hq
  have hfu : UnitsAt rate f' ∧ f'.sampleRate = r := by
    unfold commit at hc
    split at hc
    · cases hc
    · split at hc
      · cases hc
      · split at hc
        · cases hc
        · have hr' : UnitsAt rate (ready E.S E.seed E.hash0 g) := unitsAt_ready hT E.seed E.hash0 hgu
          have hq' : (ready E.S E.seed E.hash0 g).sampleRate = g.sampleRate := ready_rate E.seed E.hash0 _
          cases hc
          exact ⟨hr', hq'.trans hgr⟩
  refine ⟨c3.trans hfu.2, fun id u hu => ?_⟩
  have hid : contains g id = true := by
    obtain ⟨b1, b2, _, b4, b5, _⟩ := sent_struct hS hi.wf (Or.inr hc)
    have hx : (handle E.S back q).nodeIndex.get id ≠ none := by
      intro h; simp [unitOf, h] at hu
    rw [c4.index, b4.index, b5.index] at hx
    rw [contains]; exact Option.isSome_iff_ne_none.2 hx
  have := (C11_new hS hw hst hs0 hb hs hc hq hid (Or.inl (Or.inr hr))).2
  rw [hu] at this
  obtain ⟨v, hv, rfl⟩ := unitOf_mem this.symm
  exact (hfu.1 v hv).trans hfu.2

/-! ## Examples and violations -/

/-- Demo units that record their rate. -/
def tagEnv : Env (DU × Int) Int := ⟨tag demo, fun x => x, 0⟩

def tgen : DU × Int := (gen1, 0)
def tfil : DU × Int := (fil1, 0)

/-- The rates of the running units and of those to be faded in next. -/
def ratesOf (net : Net (DU × Int) Int) : List (Int × Option Int) := net.vertex.map fun v => (v.eng.unit.2, v.eng.next.unit.map (·.2))

theorem OneRate.runEdits [DecidableEq α] {E : Env U α} (es : List (Edit U α)) (hs : ∀ e ∈ es, ∀ r, e ≠ .setSampleRate r) {n m : NodeId}
    {net net' : Net U α} (h : OneRate E n net) (he : Net.runEdits E n net es = some (net', m)) : OneRate E m net' := by
  induction es generalizing n net with
  | nil => simp only [Net.runEdits, Option.some.injEq, Prod.mk.injEq] at he; obtain ⟨rfl, rfl⟩ := he; exact h
  | cons e es ih =>
    simp only [Net.runEdits, Option.bind_eq_some_iff] at he
    obtain ⟨⟨x, k⟩, hx, he⟩ := he
    exact ih (fun e he => hs e (List.mem_cons_of_mem _ he)) (h.edit e hx (fun r hr => absurd hr (hs e List.mem_cons_self r))) he

/-- A generator and a filter in a net at 48 kHz, and a crossfade to another filter that is under way. -/
def fadingCalls : List (Edit (DU × Int) Int) := [.push tgen, .chain tfil, .crossfade 1 .smooth 1 tfil]

example : ∃ net m, runEdits tagEnv 0 (new 48000 0 1) fadingCalls = some (net, m) ∧ OneRate tagEnv m net ∧ net.sampleRate = 48000 ∧
    ratesOf net = [(48000, none), (48000, some 48000)] := by
  refine ⟨_, _, rfl, OneRate.runEdits fadingCalls ?_ (OneRate.new 0 48000 0 1) rfl, rfl, rfl⟩
  intro e he r
  simp only [fadingCalls, List.mem_cons, List.not_mem_nil, or_false] at he
  rcases he with rfl | rfl | rfl <;> exact fun h => (nomatch h)

/-- **C88** is violated: a rate change leaves the unit that is being faded in at the old rate, and it stays there when it has taken over
(`net.rs:1315-1332` sets the rate of the running unit of each vertex only). -/
theorem C88_violation_fade : ∃ net m, runEdits tagEnv 0 (new 2 0 1) (fadingCalls ++ [.setSampleRate 1]) = some (net, m) ∧
    net.sampleRate = 1 ∧ ratesOf net = [(1, none), (1, some 2)] ∧
    ∃ net' m', runEdits tagEnv m net [.tick [], .tick []] = some (net', m') ∧ net'.sampleRate = 1 ∧ ratesOf net' = [(1, none), (2, none)] :=
  ⟨_, _, rfl, rfl, rfl, _, _, rfl, rfl, rfl⟩

/-- **C88** is violated: operators keep the rate of the first net and do not tell it to the units of the second (here a wrapped unit, which has
the default rate; `net >> unit` wraps the unit like this). Setting the rate of the result to that rate afterwards changes nothing. -/
theorem C88_violation_operator : ∃ a m b c k, runEdits tagEnv 0 (new 48000 0 1) [.push tgen, .pipeOutput 0] = some (a, m) ∧
    Net.wrap tagEnv.S 44100 m tfil = some b ∧ Op2.apply tagEnv a b (m + 1) .pipe = some (c, k) ∧
    c.sampleRate = 48000 ∧ ratesOf c = [(48000, none), (44100, none)] ∧
    ratesOf (setSampleRate tagEnv.S tagEnv.seed tagEnv.hash0 c 48000) = [(48000, none), (44100, none)] :=
  ⟨_, _, _, _, _, rfl, rfl, rfl, rfl, rfl, rfl⟩

/-- **C88** is violated: the negation of a net reports the default rate, whatever the rate of the net. -/
theorem C88_violation_neg : ∃ a m c k, runEdits tagEnv 0 (new 48000 0 1) [.push tgen, .pipeOutput 0] = some (a, m) ∧
    Net.neg tagEnv.S 44100 a m = some (c, k) ∧ c.sampleRate = 44100 ∧ ratesOf c = [(44100, none), (48000, none), (44100, none)] :=
  ⟨_, _, _, _, rfl, rfl, rfl, rfl⟩

/-- **C88** is violated: the rate of the backend is set there (as the audio thread does, `realnet.rs:127-130`), the frontend keeps its own rate. The
next commit brings the rate of the frontend back; the old node stays at the rate of the backend and the new node is at that of the frontend. -/
theorem C88_violation_backend : ∃ f m f1 b f2 k f3 M, runEdits tagEnv 0 (new 44100 0 1) [.push tgen, .pipeOutput 0] = some (f, m) ∧
    backend tagEnv f = some (f1, b) ∧ runEdits tagEnv m f1 [.chain tfil] = some (f2, k) ∧ commit tagEnv f2 = some (f3, M) ∧
    (handle tagEnv.S (setSampleRate tagEnv.S tagEnv.seed tagEnv.hash0 b 48000) [.net M]).sampleRate = 44100 ∧
    ratesOf (handle tagEnv.S (setSampleRate tagEnv.S tagEnv.seed tagEnv.hash0 b 48000) [.net M]) = [(48000, none), (44100, none)] :=
  ⟨_, _, _, _, _, _, _, _, rfl, rfl, rfl, rfl, rfl, rfl⟩

/-- The hypotheses of `C88_threads` and `C88_commit` hold of a run in which the backend is started, plays, a node is added and committed. -/
example : ∃ f m f1 b, runEdits tagEnv 0 (new 44100 0 1) [.push tgen, .pipeOutput 0] = some (f, m) ∧ OneRate tagEnv m f ∧
    backend tagEnv f = some (f1, b) ∧ ∃ f2 k f3 M, runEdits tagEnv m f1 [.chain tfil] = some (f2, k) ∧ commit tagEnv f2 = some (f3, M) ∧
      Sys.Run tagEnv (fun u _ _ _ => (u, fun _ _ => 0)) Prod.snd m ⟨f1, [], b⟩ k ⟨f3, [.net M], (tick tagEnv.S tagEnv.seed tagEnv.hash0 (handle tagEnv.S b []) []).1⟩ ∧
      ratesOf (handle tagEnv.S (tick tagEnv.S tagEnv.seed tagEnv.hash0 (handle tagEnv.S b []) []).1 [.net M]) = [(44100, none), (44100, none)] := by
  refine ⟨_, _, _, _, rfl, ?_, rfl, _, _, _, _, rfl, rfl, ?_, rfl⟩
  · refine OneRate.runEdits [.push tgen, .pipeOutput 0] ?_ (OneRate.new 0 44100 0 1) rfl
    intro e he r
    simp only [List.mem_cons, List.not_mem_nil, or_false] at he
    rcases he with rfl | rfl <;> exact fun h => (nomatch h)
  · refine Sys.Run.commit (Sys.Run.edit (Sys.Run.tick Sys.Run.start []) (.chain tfil) rfl (fun r h => (nomatch h))) rfl

/-- A new rate for a frontend at 44.1 kHz: the backend gets it by commit. -/
example : ∃ f m f1 b g k f3 M, runEdits tagEnv 0 (new 44100 0 1) [.push tgen, .pipeOutput 0] = some (f, m) ∧
    backend tagEnv f = some (f1, b) ∧ Edit.apply tagEnv m f1 (.setSampleRate 48000) = some (g, k) ∧ f1.sampleRate ≠ 48000 ∧
    commit tagEnv g = some (f3, M) ∧ LastNet [.net M] M ∧
    (handle tagEnv.S b [.net M]).sampleRate = 48000 ∧ ratesOf (handle tagEnv.S b [.net M]) = [(48000, none)] :=
  ⟨_, _, _, _, _, _, _, _, rfl, rfl, rfl, by decide, rfl, ⟨[], [], rfl, fun m hm => (nomatch hm)⟩, rfl, rfl⟩

end Fundsp.Net
