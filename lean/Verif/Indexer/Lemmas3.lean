import Verif.Indexer.Lemmas2
/-! # The entries that were read -/
namespace Verif.Indexer
open Spec Verif.Pack Verif.Pack.Spec

/-- the part of the state that the entries make -/
structure Core where
  ix : PackIdx.Indexer := {}
  deltas : List Nat := []
  expected : List Bytes := []
  indexed : Nat := 0

def core (s : St) : Core := ⟨s.ix, s.deltas, s.expected, s.indexed⟩

/-- a state with that part -/
def withCore (s : St) (c : Core) : St := { s with ix := c.ix, deltas := c.deltas, expected := c.expected, indexed := c.indexed }

theorem withCore_core (s : St) : withCore s (core s) = s := rfl

/-- the checksum of an entry -/
def crcOf (E : Env) (F : Bytes) (e : Ent) : UInt32 := E.crc ((F.drop e.off).take (e.stop - e.off))

def addExp (E : Env) (ix : PackIdx.Indexer) (exp : List Bytes) (id : Bytes) : List Bytes :=
  if !known E id && ((ix.objects.find? fun e => e.id == id).map fun e => e.off).isNone && !exp.contains id then exp ++ [id] else exp

theorem addExpected_eq (E : Env) (s : St) (id : Bytes) : addExpected E s id = { s with expected := addExp E s.ix s.expected id } := by
  unfold addExpected addExp lookup
  split <;> rfl

theorem foldl_addExpected (E : Env) (ids : List Bytes) : ∀ s : St, ids.foldl (addExpected E) s = { s with expected := ids.foldl (addExp E s.ix) s.expected } := by
  induction ids with
  | nil => intro s; rfl
  | cons id ids ih =>
    intro s
    rw [List.foldl_cons, ih, addExpected_eq]
    rfl

/-- what verifying an object makes of the expected ids -/
def verifyExp (E : Env) (ix : PackIdx.Indexer) (exp : List Bytes) (type : Nat) (data : Bytes) : Res (List Bytes) :=
  if E.verify then
    if ¬ (type = Pack.COMMIT ∨ type = Pack.TREE ∨ type = Pack.BLOB ∨ type = Pack.TAG) then .ok exp
    else match E.refs type data with
      | none => .err (-1)
      | some ids =>
        objectId E type data.length data >>= fun id =>
        if known E id then .ok (exp.filter fun x => x ≠ id) else .ok (ids.foldl (addExp E ix) (exp.filter fun x => x ≠ id))
  else .ok exp

theorem verified_eq (E : Env) (s : St) (type : Nat) (data : Bytes) :
    verified E s type data = verifyExp E s.ix s.expected type data >>= fun exp => .ok { s with expected := exp } := by
  unfold verified verifyExp
  by_cases hv : E.verify
  · rw [if_pos hv, if_pos hv]
    unfold checkConnectivity
    by_cases ht : ¬ (type = Pack.COMMIT ∨ type = Pack.TREE ∨ type = Pack.BLOB ∨ type = Pack.TAG)
    · rw [if_pos ht, if_pos ht]; rfl
    · rw [if_neg ht, if_neg ht]
      cases E.refs type data with
      | none => rfl
      | some ids =>
        dsimp only
        cases objectId E type data.length data with
        | err e => rfl
        | ub => rfl
        | ok id =>
          rw [Res.bind_ok, Res.bind_ok]
          by_cases hk : known E id
          · rw [if_pos hk, if_pos hk]; rfl
          · rw [if_neg hk, if_neg hk, foldl_addExpected]; rfl
  · rw [if_neg hv, if_neg hv]; rfl

/-- what an entry that was read makes of the state -/
def put (E : Env) (F : Bytes) (c : Core) (e : Ent) : Res Core :=
  if isDelta e.type then .ok { c with deltas := c.deltas ++ [e.off] }
  else
    objectId E e.type e.size e.data >>= fun id =>
    verifyExp E c.ix c.expected e.type e.data >>= fun exp =>
    PackIdx.saveEntry c.ix ⟨id, crcOf E F e, e.off⟩ >>= fun ix => .ok { c with ix := ix, expected := exp, indexed := c.indexed + 1 }

theorem finish_put (E : Env) (s : St) (X : Bytes) (e : Ent) (st : Stream) (h1 : st.entry = e.off) (h2 : st.type = e.type) (h3 : st.size = e.size) (h4 : s.off = e.stop)
    (h5 : e.off ≤ e.stop) (h6 : e.stop ≤ s.file.length) :
    finish E s st e.data = match put E (s.file ++ X) (core s) e with
      | .ok c => .ready (withCore s c)
      | .err e => .fail e
      | .ub => .ub := by
  unfold finish put
  rw [h2, h1]
  by_cases hd : isDelta e.type
  · rw [if_pos hd, if_pos hd]; rfl
  · rw [if_neg hd, if_neg hd]
    unfold storeObject
    rw [h2, h1, h3]
    cases objectId E e.type e.size e.data with
    | err e => rfl
    | ub => rfl
    | ok id =>
      rw [Res.bind_ok, Res.bind_ok, verified_eq]
      show (match (verifyExp E s.ix s.expected e.type e.data >>= fun exp => Res.ok { s with expected := exp }) >>= fun s =>
        PackIdx.saveEntry s.ix ⟨id, crcObject E s e.off s.off, e.off⟩ >>= fun ix => Res.ok { s with ix := ix } with
        | Res.ok s => Step.ready { s with indexed := s.indexed + 1 } | .err e => .fail e | .ub => .ub) = _
      rw [show (core s).ix = s.ix from rfl, show (core s).expected = s.expected from rfl]
      cases verifyExp E s.ix s.expected e.type e.data with
      | err e => rfl
      | ub => rfl
      | ok exp =>
        rw [Res.bind_ok, Res.bind_ok]
        have : crcObject E { s with expected := exp } e.off s.off = crcOf E (s.file ++ X) e := by
          unfold crcObject crcOf
          dsimp only
          rw [h4, drop_append_take _ _ _ _ (by omega)]
        dsimp only at this ⊢
        rw [this]
        rw [Res.bind_ok]
        cases PackIdx.saveEntry s.ix ⟨id, crcOf E (s.file ++ X) e, e.off⟩ with
        | err e => rfl
        | ub => rfl
        | ok ix => rfl

def putAll (E : Env) (F : Bytes) : List Ent → Core → Res Core
  | [], c => .ok c
  | e :: es, c => put E F c e >>= putAll E F es

theorem putAll_append (E : Env) (F : Bytes) (a b : List Ent) : ∀ c, putAll E F (a ++ b) c = putAll E F a c >>= putAll E F b := by
  induction a with
  | nil => intro c; rfl
  | cons e a ih =>
    intro c
    show (put E F c e >>= putAll E F (a ++ b)) = (put E F c e >>= putAll E F a) >>= putAll E F b
    cases put E F c e with
    | err e => rfl
    | ub => rfl
    | ok c => exact ih c

/-- an entry of the whole data -/
structure EntF (E : Env) (F : Bytes) (e : Ent) : Prop where
  room : e.off + 20 < F.length
  head : openEnt F e.off = .ok (e.type, e.size, e.start)
  stream : E.inflate (F.drop e.start) = .done (e.stop - e.start) e.data
  after : e.start < e.stop

theorem entF_unique {E : Env} {F : Bytes} {e e' : Ent} (h : EntF E F e) (h' : EntF E F e') (ho : e.off = e'.off) : e = e' := by
  have h1 := h.head
  rw [ho, h'.head] at h1
  cases e with
  | mk o t z st sp d =>
    cases e' with
    | mk o' t' z' st' sp' d' =>
      dsimp only at ho h1
      simp only [Res.ok.injEq, Prod.mk.injEq] at h1
      obtain ⟨rfl, rfl, rfl⟩ := h1
      subst ho
      have h2 := h.stream
      have h3 := h'.stream
      have h4 := h.after
      have h5 := h'.after
      dsimp only at h2 h3 h4 h5
      rw [h2] at h3
      simp only [Infl.done.injEq] at h3
      obtain ⟨h6, rfl⟩ := h3
      have : sp = sp' := by omega
      subst this
      rfl

theorem entF_lt {E : Env} {F : Bytes} {e : Ent} (h : EntF E F e) : e.off < e.start ∧ e.off < e.stop := by
  have := openEnt_lt h.head
  have := h.after
  omega

theorem run_le {E : Env} {F : Bytes} {l : List Ent} : ∀ {a b : Nat}, Run a l b → (∀ e ∈ l, EntF E F e) → a ≤ b ∧ (l ≠ [] → a < b) := by
  induction l with
  | nil => intro a b h _; cases h; exact ⟨Nat.le_refl _, fun h => absurd rfl h⟩
  | cons e l ih =>
    intro a b h hl
    obtain ⟨h1, h2⟩ := h
    have := (ih h2 fun e' he => hl e' (List.mem_cons_of_mem _ he)).1
    have := (entF_lt (hl e List.mem_cons_self)).2
    omega

/-- two runs of entries from the same place: one continues the other -/
theorem run_compare {E : Env} {F : Bytes} {l : List Ent} : ∀ {l' : List Ent} {a b b' : Nat}, Run a l b → Run a l' b' → (∀ e ∈ l, EntF E F e) → (∀ e ∈ l', EntF E F e) →
    (∃ x, l' = l ++ x ∧ Run b x b') ∨ (∃ x, l = l' ++ x ∧ Run b' x b) := by
  induction l with
  | nil => intro l' a b b' h h' _ _; cases h; exact .inl ⟨l', rfl, h'⟩
  | cons e l ih =>
    intro l' a b b' h h' hl hl'
    cases l' with
    | nil => cases h'; exact .inr ⟨e :: l, rfl, h⟩
    | cons e' l' =>
      obtain ⟨h1, h2⟩ := h
      obtain ⟨h1', h2'⟩ := h'
      have := entF_unique (hl e List.mem_cons_self) (hl' e' List.mem_cons_self) (by omega)
      subst this
      rcases ih h2 h2' (fun x hx => hl x (List.mem_cons_of_mem _ hx)) (fun x hx => hl' x (List.mem_cons_of_mem _ hx)) with ⟨x, rfl, hx⟩ | ⟨x, rfl, hx⟩
      · exact .inl ⟨x, rfl, hx⟩
      · exact .inr ⟨x, rfl, hx⟩

theorem run_snoc {l : List Ent} : ∀ {a b : Nat} {e : Ent}, Run a l b → e.off = b → Run a (l ++ [e]) e.stop := by
  induction l with
  | nil => intro a b e h he; cases h; exact ⟨he, rfl⟩
  | cons x l ih => intro a b e h he; exact ⟨h.1, ih h.2 he⟩

/-- the state after some entries: `ents` were read, they go up to `cur`, and the stream of the entry there may have been begun -/
structure Inv (E : Env) (F : Bytes) (s : St) (ents : List Ent) (cur : Nat) : Prop where
  front : ∃ X, F = s.file ++ X
  run : Run 12 ents cur
  entry : ∀ e ∈ ents, EntF E F e
  made : putAll E F ents {} = .ok (core s)
  none : s.stream = none → s.off = cur
  some : ∀ st, s.stream = some st → st.entry = cur ∧ Reading E F s st

/-- reading an entry -/
theorem step_cases {E : Env} (hz : Zlib E.inflate) {F : Bytes} {s : St} {ents : List Ent} {cur : Nat} (H : Inv E F s ents cur) :
    (∃ s', readObject E s = .wait s' ∧ Inv E F s' ents cur ∧ s'.file = s.file ∧ s'.hashed = s.hashed ∧ s'.inbuf = s.inbuf ∧ s'.parsed = s.parsed ∧ s'.nr = s.nr ∧ s'.injected = s.injected ∧
      core s' = core s ∧ (s.stream = none → s'.stream = none ∧ s'.off = s.off ∨ s.file.length < s'.off + 20) ∧
      (∀ e, EntF E F e → e.off = cur → s.file.length < e.stop + 20)) ∨
    ((∀ s', readObject E s ≠ .wait s') ∧ (∀ s', readObject E s ≠ .ready s') ∧ ∀ e, EntF E F e → e.off = cur → ∀ c, put E F (core s) e ≠ .ok c) ∨
    (∃ e s', EntF E F e ∧ e.off = cur ∧ e.stop ≤ s.file.length ∧ readObject E s = .ready s' ∧ Inv E F s' (ents ++ [e]) e.stop ∧ s'.stream = none ∧
      s'.file = s.file ∧ s'.hashed = s.hashed ∧ s'.inbuf = s.inbuf ∧ s'.parsed = s.parsed ∧ s'.nr = s.nr ∧ s'.injected = s.injected) := by
  obtain ⟨X, hX⟩ := H.front
  have body : ∀ (s0 : St) (st : Stream), s0.file = s.file → s0.hashed = s.hashed → s0.inbuf = s.inbuf → s0.parsed = s.parsed → s0.nr = s.nr → s0.injected = s.injected → core s0 = core s →
      st.entry = cur → Reading E F s0 st → readObject E s = readBody E s0 st →
      (∃ s', readObject E s = .wait s' ∧ Inv E F s' ents cur ∧ s'.file = s.file ∧ s'.hashed = s.hashed ∧ s'.inbuf = s.inbuf ∧ s'.parsed = s.parsed ∧ s'.nr = s.nr ∧ s'.injected = s.injected ∧
        core s' = core s ∧ (s.stream = none → s'.stream = none ∧ s'.off = s.off ∨ s.file.length < s'.off + 20) ∧
        (∀ e, EntF E F e → e.off = cur → s.file.length < e.stop + 20)) ∨
      ((∀ s', readObject E s ≠ .wait s') ∧ (∀ s', readObject E s ≠ .ready s') ∧ ∀ e, EntF E F e → e.off = cur → ∀ c, put E F (core s) e ≠ .ok c) ∨
      (∃ e s', EntF E F e ∧ e.off = cur ∧ e.stop ≤ s.file.length ∧ readObject E s = .ready s' ∧ Inv E F s' (ents ++ [e]) e.stop ∧ s'.stream = none ∧
        s'.file = s.file ∧ s'.hashed = s.hashed ∧ s'.inbuf = s.inbuf ∧ s'.parsed = s.parsed ∧ s'.nr = s.nr ∧ s'.injected = s.injected) := by
    intro s0 st f1 f2 f3 f4 f5 f6 f7 he hr hro
    have hX0 : F = s0.file ++ X := by rw [f1]; exact hX
    have hst : ∀ e, EntF E F e → e.off = cur → e.type = st.type ∧ e.size = st.size ∧ e.start = st.start := by
      intro e hE hc
      have h1 := hE.head
      rw [hc, ← he, hr.head] at h1
      simp only [Res.ok.injEq, Prod.mk.injEq] at h1
      omega
    rw [hro]
    rw [hX0] at hr
    rcases body_cases hz hr with ⟨c, b1, b2, b3⟩ | ⟨b1, b2⟩ | ⟨n, d, b1, b2, b3⟩
    · left
      refine ⟨_, b1, ⟨⟨X, hX0⟩, H.run, H.entry, ?_, (fun h => nomatch h), ?_⟩, f1, f2, f3, f4, f5, f6, f7, ?_, ?_⟩
      · rw [H.made, ← f7]; rfl
      · intro st' h
        cases h
        rw [← hX0] at b2
        exact ⟨he, b2⟩
      · intro _
        right
        rw [← f1]; exact b3
      · intro e hE hc
        have := hst e hE hc
        have h1 := hE.stream
        have h2 := hE.after
        rw [this.2.2] at h1 h2
        rw [hX0] at h1
        have := b2.lt _ _ h1
        dsimp only at this
        rw [← f1]
        omega
    · right; left
      refine ⟨fun s' h => (by rw [b1] at h; cases h), fun s' h => (by rw [b1] at h; cases h), ?_⟩
      intro e hE hc
      have := hst e hE hc
      have h1 := hE.stream
      rw [this.2.2, hX0] at h1
      exact absurd h1 (b2 _ _)
    · have hn : 0 < n := (hz.used _ _ _ b1).1
      have hent : EntF E F ⟨cur, st.type, st.size, st.start, st.start + n, d⟩ := by
        refine ⟨?_, ?_, ?_, ?_⟩
        · rw [← he, hX0]; exact hr.room
        · show openEnt F cur = _
          rw [← he, hX0]; exact hr.head
        · show E.inflate (F.drop st.start) = .done (st.start + n - st.start) d
          rw [Nat.add_sub_cancel_left, hX0]; exact b1
        · show st.start < st.start + n
          omega
      have hfin := finish_put E { s0 with stream := none, off := st.start + n } X ⟨cur, st.type, st.size, st.start, st.start + n, d⟩ st he rfl rfl rfl
        (Nat.le_of_lt (entF_lt hent).2) b2
      rw [b3]
      dsimp only at hfin
      rw [hfin]
      rw [← hX0]
      have hco : core { s0 with stream := none, off := st.start + n } = core s := f7
      rw [hco]
      cases hp : put E F (core s) ⟨cur, st.type, st.size, st.start, st.start + n, d⟩ with
      | ok c =>
        right; right
        refine ⟨_, _, hent, rfl, by rw [← f1]; exact b2, rfl, ⟨⟨X, hX0⟩, run_snoc H.run rfl, ?_, ?_, fun _ => rfl, (fun _ h => nomatch h)⟩, rfl, f1, f2, f3, f4, f5, f6⟩
        · intro e he'
          rcases List.mem_append.mp he' with h | h
          · exact H.entry e h
          · rw [List.mem_singleton.mp h]; exact hent
        · rw [putAll_append, H.made, Res.bind_ok]
          show (put E F (core s) _ >>= putAll E F []) = _
          rw [hp]
          rfl
      | err x =>
        right; left
        refine ⟨(fun s' h => nomatch h), (fun s' h => nomatch h), fun e hE hc c hh => ?_⟩
        rw [entF_unique hE hent hc, hp] at hh
        cases hh
      | ub =>
        right; left
        refine ⟨(fun s' h => nomatch h), (fun s' h => nomatch h), fun e hE hc c hh => ?_⟩
        rw [entF_unique hE hent hc, hp] at hh
        cases hh
  by_cases hl : s.file.length ≤ s.off + 20
  · left
    have hro : readObject E s = .wait s := by unfold readObject; rw [if_pos hl]
    refine ⟨s, hro, H, rfl, rfl, rfl, rfl, rfl, rfl, rfl, fun h => .inl ⟨h, rfl⟩, fun e hE hc => ?_⟩
    cases hs : s.stream with
    | none =>
      have := H.none hs
      have := (entF_lt hE).2
      omega
    | some st =>
      obtain ⟨h1, h2⟩ := H.some st hs
      have h3 := hE.head
      rw [hc, ← h1, h2.head] at h3
      simp only [Res.ok.injEq, Prod.mk.injEq] at h3
      have h4 := hE.stream
      have h5 := hE.after
      rw [← h3.2.2] at h4 h5
      have := h2.lt _ _ h4
      omega
  · cases hs : s.stream with
    | some st =>
      obtain ⟨h1, h2⟩ := H.some st hs
      refine body s st rfl rfl rfl rfl rfl rfl rfl h1 h2 ?_ |>.imp ?_ id
      · unfold readObject; rw [if_neg hl, hs]
      · rintro ⟨s', g⟩
        refine ⟨s', ?_⟩
        rw [hs] at g
        exact g
    | none =>
      have hcur := H.none hs
      rcases open_cases E s X hs (by omega) with ⟨h1, h2⟩ | ⟨h1, h2, h3⟩ | ⟨t, sz, st, h1, h2⟩
      · left
        refine ⟨s, h1, H, rfl, rfl, rfl, rfl, rfl, rfl, rfl, fun h => .inl ⟨hs, rfl⟩, fun e hE hc => ?_⟩
        have := hE.head
        rw [hc, ← hcur, hX] at this
        have := h2 _ _ _ this
        have := hE.after
        omega
      · right; left
        refine ⟨h2, h1, fun e hE hc => ?_⟩
        have := hE.head
        rw [hc, ← hcur, hX] at this
        exact absurd this (h3 _)
      · rw [← hX] at h1
        have := body { s with off := st } ⟨s.off, st, sz, t⟩ rfl rfl rfl rfl rfl rfl rfl hcur
          ⟨Nat.le_refl _, (by show s.off + 20 < F.length; rw [hX, List.length_append]; omega), h1, fun n d h => ?_⟩ h2
        · rw [hs] at this
          exact this
        · have := (hz.used _ _ _ h).1
          show st < st + n
          omega

end Verif.Indexer
