import Verif.Tree.LemmasOrder
import Verif.HashMap.Props
import Mathlib.Data.List.Nodup
namespace Verif.Tree
open Spec

/-! ### canonical octal numerals are unique -/

theorem digit8_char {c : UInt8} {v : Nat} (h : Strtol.Spec.Digit c v) (hv : v < 8) : c = UInt8.ofNat (48 + v) := by
  have : ∀ v : Fin 8, ∀ c : UInt8, (Strtol.Spec.digits[v.val]? = some c ∨ Strtol.Spec.upper[v.val]? = some c) → c = UInt8.ofNat (48 + v.val) := by
    decide +kernel
  exact this ⟨v, hv⟩ c h

theorem octal_unique {o : Bytes} {n : Nat} (h : Octal n o) : o = octal n := by
  obtain ⟨hs, hne, hz⟩ := h
  have key : ∀ {o : Bytes} {n : Nat}, Strtol.Spec.Spells 8 o n → o ≠ [] → (o.head? = some c!"0" → n = 0 ∧ o = b!"0") → o = octal n := by
    intro o n hs
    induction hs with
    | nil => intro h; exact absurd rfl h
    | snoc hs hd hv ih =>
      rename_i ds n c v
      intro _ hz
      have hc := digit8_char hd hv
      cases hds : ds with
      | nil =>
        subst hds
        have h0 : n = 0 := by
          have := Strtol.Spells.unique hs Strtol.Spec.Spells.nil
          exact this
        subst h0
        rw [octal, if_pos (by omega)]
        simp [hc]
      | cons d ds' =>
        rw [hds] at hs ih hz
        have hh : d ≠ c!"0" := by
          intro hd0
          have := (hz (by simp [hd0])).2
          simp at this
        have e := ih (by simp) (by simp [hh])
        have hn : n ≠ 0 := by
          intro h0
          subst h0
          have : octal 0 = b!"0" := by rw [octal]; rfl
          rw [this] at e
          simp at e
          exact hh e.1
        have h1 : octal (n * 8 + v) = octal n ++ [UInt8.ofNat (48 + v)] := by
          rw [octal, if_neg (by omega)]
          have e1 : (n * 8 + v) / 8 = n := by omega
          have e2 : (n * 8 + v) % 8 = v := by omega
          rw [e1, e2]
        rw [h1, ← e, hc]
  exact key hs hne hz

theorem canonical_unique {c : Contents} {b b' : Bytes} (h : Canonical c b) (h' : Canonical c b') : b = b' := by
  obtain ⟨es, hm, hp, mo, hmo, rfl⟩ := h
  obtain ⟨es', hm', hp', mo', hmo', rfl⟩ := h'
  have hnd : ∀ l : List (Nat × Bytes × Bytes), l.Pairwise (fun a b => gitKey a.1 a.2.1 < gitKey b.1 b.2.1) → l.Nodup := by
    intro l hl
    apply hl.imp
    rintro a b hab rfl
    exact absurd hab (List.lt_irrefl _)
  have hperm : es.Perm es' := by
    rw [List.perm_ext_iff_of_nodup (hnd _ hp) (hnd _ hp')]
    rintro ⟨m, n, id⟩
    rw [hm, hm']
  have : es = es' := by
    apply hperm.eq_of_pairwise (le := fun a b => gitKey a.1 a.2.1 < gitKey b.1 b.2.1) _ hp hp'
    intro a b _ _ hab hba
    exact absurd (List.lt_trans hab hba) (List.lt_irrefl _)
  subst this
  congr 1
  funext e
  rw [octal_unique (hmo e.1), octal_unique (hmo' e.1)]

/-! ### refinement of the builder -/

/-- the hash table of a builder holds the contents `c` -/
structure BRel (env : Env) (h : Bld) (c : Contents) : Prop where
  inv : HashMap.Inv env.hash h
  name : ∀ n e, HashMap.Has h n e → e.name = n
  has : ∀ n m id, HashMap.Has h n ⟨m, n, id⟩ ↔ c n = some (m, id)

/-- finishing a refinement proof from what happened to the bindings -/
theorem BRel.has_iff {env : Env} {h : Bld} {c : Contents} (hr : BRel env h c) (n : Bytes) (e : Entry) :
    HashMap.Has h n e ↔ e.name = n ∧ c n = some (e.attr, e.oid) := by
  constructor
  · intro hh
    have := hr.name n e hh
    refine ⟨this, ?_⟩
    rw [← hr.has]
    subst this
    exact hh
  · rintro ⟨rfl, h2⟩
    exact (hr.has _ _ _).mpr h2

theorem brel_of {env : Env} {h : Bld} {c : Contents} (hi : HashMap.Inv env.hash h)
    (hh : ∀ n e, HashMap.Has h n e ↔ e.name = n ∧ c n = some (e.attr, e.oid)) : BRel env h c :=
  ⟨hi, fun n e he => ((hh n e).mp he).1, fun n m id => by rw [hh]; simp⟩

theorem BRel.get {env : Env} {h : Bld} {c : Contents} (hr : BRel env h c) (n : Bytes) :
    Tree.get env h n = (c n).map (fun p => ⟨p.1, n, p.2⟩) := by
  unfold Tree.get HashMap.get
  cases hc : c n with
  | some p =>
    obtain ⟨i, a, b⟩ := (hr.has n p.1 p.2).mpr hc
    rw [HashMap.idx_found hr.inv a b]
    simp [b]
  | none =>
    rw [HashMap.idx_not_found hr.inv]
    · rfl
    · intro e he
      have := ((hr.has_iff n e).mp he).2
      rw [hc] at this; cases this

theorem append_ok {env : Env} {h : Bld} {c : Contents} (hr : BRel env h c) (hs : h.size < 2 ^ 30) (e : Entry) :
    ∃ h', HashMap.put env.hash h e.name e = .ok h' ∧ BRel env h' (fun n => if n = e.name then some (e.attr, e.oid) else c n) := by
  obtain ⟨h', e1, e2, e3⟩ := HashMap.put_ok hr.inv hs e.name e
  refine ⟨h', e1, brel_of e2 ?_⟩
  intro n x
  rw [e3, hr.has_iff]
  constructor
  · rintro (⟨rfl, rfl⟩ | ⟨h1, h2, h3⟩)
    · simp
    · simp [h1, h2, h3]
  · rintro ⟨h1, h2⟩
    split at h2
    · rename_i hn
      left
      refine ⟨hn, ?_⟩
      simp only [Option.some.injEq, Prod.mk.injEq] at h2
      cases x; cases e
      simp only at *
      simp [h1, h2, hn]
    · right; rename_i hn; exact ⟨hn, h1, h2⟩

theorem insert_ok {env : Env} {h : Bld} {c : Contents} (hr : BRel env h c) (hs : h.size < 2 ^ 30) (name oid : Bytes) (mode : Nat)
    (hck : checkEntry env name oid mode = true) (hmode : mode < 65536) :
    ∃ h', insert env h name oid mode = .ok h' ∧ BRel env h' (fun n => if n = name then some (mode, oid) else c n) := by
  unfold insert
  rw [if_pos hck, Nat.mod_eq_of_lt hmode]
  cases hc : c name with
  | none =>
    rw [HashMap.idx_not_found hr.inv]
    · simp only
      obtain ⟨h', e1, e2⟩ := append_ok hr hs ⟨mode, name, oid⟩
      exact ⟨h', e1, e2⟩
    · intro e he
      have := ((hr.has_iff name e).mp he).2
      rw [hc] at this; cases this
  | some p =>
    obtain ⟨i, a, b⟩ := (hr.has name p.1 p.2).mpr hc
    rw [HashMap.idx_found hr.inv a b]
    simp only [b]
    refine ⟨_, rfl, brel_of ?_ ?_⟩
    · have hsame : ∀ j k (v : Entry), HashMap.upd h.kv i (some (name, ⟨mode, name, oid⟩)) j = some (k, v) → ∃ w, h.kv j = some (k, w) := by
        intro j k v hj
        unfold HashMap.upd at hj
        split at hj
        · rename_i hji
          subst hji
          simp only [Option.some.injEq, Prod.mk.injEq] at hj
          exact ⟨_, by rw [b, hj.1]⟩
        · exact ⟨v, hj⟩
      constructor
      · exact hr.inv.shape
      · exact hr.inv.inb
      · intro j hj
        simp only [HashMap.upd]
        split
        · exact ⟨_, rfl⟩
        · exact hr.inv.kvok j hj
      · intro i1 i2 k v w h1 h2 h3 h4
        obtain ⟨_, h3'⟩ := hsame _ _ _ h3
        obtain ⟨_, h4'⟩ := hsame _ _ _ h4
        exact hr.inv.uniq i1 i2 k _ _ h1 h2 h3' h4'
      · intro j k v h1 h2
        obtain ⟨_, h2'⟩ := hsame _ _ _ h2
        exact hr.inv.reach j k _ h1 h2'
      · exact hr.inv.size
      · exact hr.inv.occ
      · exact hr.inv.load
    · intro n x
      unfold HashMap.Has
      simp only [HashMap.upd]
      constructor
      · rintro ⟨j, h1, h2⟩
        split at h2
        · simp only [Option.some.injEq, Prod.mk.injEq] at h2
          obtain ⟨rfl, rfl⟩ := h2
          simp
        · rename_i hji
          have hx := (hr.has_iff n x).mp ⟨j, h1, h2⟩
          have : n ≠ name := by
            rintro rfl
            exact hji (hr.inv.uniq _ _ _ _ _ h1 a h2 b)
          simp [this, hx]
      · rintro ⟨h1, h2⟩
        split at h2
        · rename_i hn
          subst hn
          refine ⟨i, a, ?_⟩
          simp only [Option.some.injEq, Prod.mk.injEq] at h2
          rw [if_pos rfl]
          cases x; simp only at *
          simp [h1, h2]
        · rename_i hn
          obtain ⟨j, h3, h4⟩ := (hr.has_iff n x).mpr ⟨h1, h2⟩
          refine ⟨j, h3, ?_⟩
          rw [if_neg]
          · exact h4
          · rintro rfl
            rw [b] at h4
            simp at h4
            exact hn h4.1.symm

theorem remove_ok {env : Env} {h : Bld} {c : Contents} (hr : BRel env h c) (name : Bytes) :
    (c name = none ∧ remove env h name = .err (-1)) ∨
    ∃ h', remove env h name = .ok h' ∧ BRel env h' (fun n => if n = name then none else c n) ∧ h'.size ≤ h.size := by
  unfold remove
  rw [hr.get]
  cases hc : c name with
  | none => left; simp
  | some p =>
    right
    have hh : HashMap.Has h name ⟨p.1, name, p.2⟩ := (hr.has name p.1 p.2).mpr hc
    obtain ⟨h', e1, e2, e3, e4⟩ := HashMap.remove_spec hr.inv name ⟨_, hh⟩
    simp only [Option.map_some, e1]
    refine ⟨h', rfl, brel_of e2 ?_, by omega⟩
    intro n x
    rw [e3, hr.has_iff]
    split
    · rename_i hn; simp [hn]
    · rename_i hn; simp [hn]

/-! filtering -/

/-- what removal does to the table: only one flag changes -/
theorem remove_at {env : Env} {h : Bld} (hi : HashMap.Inv env.hash h) {k : Bytes} {e : Entry} {i : Nat} (hl : h.flag i = .live)
    (hk : h.kv i = some (k, e)) :
    HashMap.remove env.hash h k = .ok { h with flag := HashMap.upd h.flag i .deleted, size := h.size - 1 } := by
  unfold HashMap.remove
  rw [HashMap.idx_found hi hl hk]
  have := hi.inb i (by rw [hl]; simp)
  simp [this, hl]

theorem filterLoop_ok {env : Env} {f : Entry → Bool} {h0 : Bld} (k : Nat) : ∀ (i : Nat) (h : Bld), HashMap.Inv env.hash h → i + k = h.n →
    h.kv = h0.kv → (∀ j, h.flag j = .live ↔ h0.flag j = .live ∧ ∀ q, h0.kv j = some q → j < i → f q.2 = false) →
    h.size ≤ h0.size →
    ∃ h', filterLoop env f k i h = .ok h' ∧ HashMap.Inv env.hash h' ∧ h'.kv = h0.kv ∧ h'.n = h.n ∧ h'.size ≤ h0.size ∧
      (∀ j, h'.flag j = .live ↔ h0.flag j = .live ∧ ∀ q, h0.kv j = some q → j < i + k → f q.2 = false) := by
  induction k with
  | zero =>
    intro i h hi hn hkv hf hsz
    exact ⟨h, rfl, hi, hkv, rfl, hsz, by simpa using hf⟩
  | succ k ih =>
    intro i h hi hn hkv hf hsz
    rw [filterLoop]
    have step : ∃ h', filterStep env f h i = .ok h' ∧ HashMap.Inv env.hash h' ∧ h'.kv = h0.kv ∧ h'.n = h.n ∧ h'.size ≤ h0.size ∧
        (∀ j, h'.flag j = .live ↔ h0.flag j = .live ∧ ∀ q, h0.kv j = some q → j < i + 1 → f q.2 = false) := by
      unfold filterStep
      by_cases hl : h.flag i = .live
      · rw [if_pos hl]
        obtain ⟨⟨key, e⟩, hk⟩ := hi.kvok i hl
        simp only [hk]
        by_cases hfe : f e = true
        · rw [if_pos hfe]
          obtain ⟨h', e1, e2, _⟩ := HashMap.remove_spec hi key ⟨e, i, hl, hk⟩
          have e1' := e1
          rw [remove_at hi hl hk] at e1'
          cases e1'
          rw [e1]
          refine ⟨_, rfl, e2, hkv, rfl, by simp only; omega, ?_⟩
          intro j
          simp only [HashMap.upd]
          by_cases hj : j = i
          · subst hj
            simp only [if_true]
            constructor
            · intro h; cases h
            · rintro ⟨h1, h2⟩
              rw [hkv] at hk
              have := h2 _ hk (by omega)
              simp [hfe] at this
          · rw [if_neg hj, hf]
            constructor
            · rintro ⟨h1, h2⟩; exact ⟨h1, fun q hq hlt => h2 q hq (by omega)⟩
            · rintro ⟨h1, h2⟩; exact ⟨h1, fun q hq hlt => h2 q hq (by omega)⟩
        · rw [if_neg hfe]
          refine ⟨h, rfl, hi, hkv, rfl, hsz, ?_⟩
          intro j
          rw [hf]
          constructor
          · rintro ⟨h1, h2⟩
            refine ⟨h1, fun q hq hlt => ?_⟩
            by_cases hj : j = i
            · subst hj
              rw [hkv, hq] at hk
              simp at hk; subst hk
              simpa using hfe
            · exact h2 q hq (by omega)
          · rintro ⟨h1, h2⟩; exact ⟨h1, fun q hq hlt => h2 q hq (by omega)⟩
      · rw [if_neg hl]
        refine ⟨h, rfl, hi, hkv, rfl, hsz, ?_⟩
        intro j
        by_cases hj : j = i
        · subst hj
          constructor
          · intro h; exact absurd h hl
          · rintro ⟨h1, h2⟩
            exact absurd ((hf j).mpr ⟨h1, fun q hq hlt => h2 q hq (by omega)⟩) hl
        · rw [hf]
          constructor
          · rintro ⟨h1, h2⟩; exact ⟨h1, fun q hq hlt => h2 q hq (by omega)⟩
          · rintro ⟨h1, h2⟩; exact ⟨h1, fun q hq hlt => h2 q hq (by omega)⟩
    obtain ⟨h1, e1, i1, kv1, n1, s1, f1⟩ := step
    rw [e1]
    obtain ⟨h', e2, i2, kv2, n2, s2, f2⟩ := ih (i + 1) h1 i1 (by omega) kv1 f1 s1
    refine ⟨h', e2, i2, kv2, by omega, s2, ?_⟩
    intro j
    rw [f2]
    constructor
    · rintro ⟨a, b⟩; exact ⟨a, fun q hq hlt => b q hq (by omega)⟩
    · rintro ⟨a, b⟩; exact ⟨a, fun q hq hlt => b q hq (by omega)⟩

theorem filter_ok {env : Env} {h : Bld} {c : Contents} (hr : BRel env h c) (f : Entry → Bool) :
    ∃ h', filter env f h = .ok h' ∧ h'.size ≤ h.size ∧
      BRel env h' (fun n => match c n with
        | some (m, id) => if f ⟨m, n, id⟩ then none else some (m, id)
        | none => none) := by
  obtain ⟨h', e, hi, kv, hn, hsz, hf⟩ := filterLoop_ok (f := f) (h0 := h) h.n 0 h hr.inv (by omega) rfl (by simp) (Nat.le_refl _)
  refine ⟨h', e, hsz, brel_of hi ?_⟩
  intro n x
  have : HashMap.Has h' n x ↔ HashMap.Has h n x ∧ f x = false := by
    unfold HashMap.Has
    rw [kv]
    constructor
    · rintro ⟨j, h1, h2⟩
      obtain ⟨h3, h4⟩ := (hf j).mp h1
      have := hr.inv.inb j (by rw [h3]; simp)
      exact ⟨⟨j, h3, h2⟩, h4 _ h2 (by omega)⟩
    · rintro ⟨⟨j, h1, h2⟩, h3⟩
      refine ⟨j, (hf j).mpr ⟨h1, ?_⟩, h2⟩
      intro q hq _
      rw [h2] at hq; simp at hq; subst hq; exact h3
  rw [this, hr.has_iff]
  constructor
  · rintro ⟨⟨h1, h2⟩, h3⟩
    refine ⟨h1, ?_⟩
    subst h1
    simp only [h2]
    rw [if_neg (by simpa using h3)]
  · rintro ⟨h1, h2⟩
    subst h1
    split at h2
    · rename_i m id hc
      split at h2
      · cases h2
      · rename_i hff
        simp only [Option.some.injEq, Prod.mk.injEq] at h2
        obtain ⟨rfl, rfl⟩ := h2
        exact ⟨⟨rfl, hc⟩, by simpa using hff⟩
    · cases h2

theorem clear_ok {env : Env} {h : Bld} {c : Contents} (hr : BRel env h c) : BRel env (clear h) (fun _ => none) := by
  obtain ⟨hi, hno⟩ := HashMap.clear_ok hr.inv
  exact brel_of hi (fun n e => by simp [clear, hno])

theorem size_put {env : Env} {h h' : Bld} {k : Bytes} {e : Entry} (hi : HashMap.Inv env.hash h)
    (hp : HashMap.put env.hash h k e = .ok h') (hi' : HashMap.Inv env.hash h') (hs : h.size < 2 ^ 30)
    : h'.size ≤ h.size + 1 := by
  obtain ⟨h'', e1, _, e3⟩ := HashMap.put_ok hi hs k e
  rw [hp] at e1; cases e1
  rw [hi.size, hi'.size, ← (HashMap.entries_aux hi h.n).2, ← (HashMap.entries_aux hi' h'.n).2]
  have hsub : HashMap.entries h' ⊆ (k, e) :: HashMap.entries h := by
    rintro ⟨n, x⟩ hx
    rw [HashMap.entries_mem hi', e3] at hx
    rcases hx with ⟨rfl, rfl⟩ | ⟨_, hx⟩
    · simp
    · exact List.mem_cons_of_mem _ ((HashMap.entries_mem hi n x).mpr hx)
  have hnd : (HashMap.entries h').Nodup := List.Nodup.of_map _ (HashMap.entries_aux hi' h'.n).1
  exact (List.Nodup.subperm hnd hsub).length_le

theorem writeEntry_eq {e : Entry} (h : Plain e) : writeEntry e = octal e.attr ++ b!" " ++ e.name ++ [0] ++ e.oid := by
  unfold writeEntry
  rw [h.flen, List.take_of_length_le (by simp)]
  simp

theorem write_ok {env : Env} {h : Bld} {c : Contents} (hr : BRel env h c)
    (hp : ∀ n m id, c n = some (m, id) → Plain ⟨m, n, id⟩) {bytes : Bytes} (hw : write h = .ok bytes) : Canonical c bytes := by
  unfold write at hw
  have hmem : ∀ e, e ∈ (HashMap.entries h).map (·.2) ↔ c e.name = some (e.attr, e.oid) := by
    intro e
    rw [List.mem_map]
    constructor
    · rintro ⟨⟨n, x⟩, hx, rfl⟩
      have := (hr.has_iff n x).mp ((HashMap.entries_mem hr.inv n x).mp hx)
      obtain ⟨rfl, h2⟩ := this
      exact h2
    · intro hc
      exact ⟨(e.name, e), (HashMap.entries_mem hr.inv _ _).mpr ((hr.has_iff _ _).mpr ⟨rfl, hc⟩), rfl⟩
  have hpl : ∀ e ∈ (HashMap.entries h).map (·.2), Plain e := fun e he => hp _ _ _ ((hmem e).mp he)
  have hnd : (((HashMap.entries h).map (·.2)).map (·.name)).Nodup := by
    have h1 := (HashMap.entries_aux hr.inv h.n).1
    have : ((HashMap.entries h).map (·.2)).map (·.name) = (HashMap.entries h).map (·.1) := by
      rw [List.map_map]
      apply List.map_congr_left
      rintro ⟨n, x⟩ hx
      exact hr.name n x ((HashMap.entries_mem hr.inv n x).mp hx)
    rw [this]; exact h1
  split at hw
  · rename_i es hes
    cases hw
    obtain ⟨hperm, hsort⟩ := sortEntries_ok hpl hnd hes
    refine ⟨es.map Entry.toSpec, ?_, ?_, octal, octal_spec, ?_⟩
    · intro m n id
      rw [List.mem_map]
      constructor
      · rintro ⟨e, he, heq⟩
        have := (hmem e).mp (hperm.mem_iff.mp he)
        simp only [Entry.toSpec, Prod.mk.injEq] at heq
        obtain ⟨rfl, rfl, rfl⟩ := heq
        exact this
      · intro hc
        exact ⟨⟨m, n, id⟩, hperm.mem_iff.mpr ((hmem _).mpr hc), rfl⟩
    · rw [List.pairwise_map]; exact hsort
    · unfold writeEntries
      rw [List.flatMap_map]
      rw [List.flatMap_def, List.flatMap_def]
      congr 1
      apply List.map_congr_left
      intro e he
      rw [writeEntry_eq (hpl e (hperm.mem_iff.mp he))]
      rfl
  · cases hw
  · cases hw

theorem write_small {env : Env} {h : Bld} {c : Contents} (hr : BRel env h c)
    (hp : ∀ n m id, c n = some (m, id) → Plain ⟨m, n, id⟩) (hs : h.size ≤ 2 ^ 47) : ∃ bytes, write h = .ok bytes := by
  unfold write
  have hpl : ∀ e ∈ (HashMap.entries h).map (·.2), Plain e := by
    intro e he
    obtain ⟨⟨n, x⟩, hx, rfl⟩ := List.mem_map.mp he
    obtain ⟨rfl, h2⟩ := (hr.has_iff n x).mp ((HashMap.entries_mem hr.inv n x).mp hx)
    exact hp _ _ _ h2
  have hl : ((HashMap.entries h).map (·.2)).length ≤ 2 ^ 47 := by
    rw [List.length_map]
    have := (HashMap.entries_aux hr.inv h.n).2
    rw [hr.inv.size, ← this] at hs
    exact hs
  obtain ⟨out, e⟩ := sortEntries_small hpl hl
  rw [e]
  exact ⟨_, rfl⟩

end Verif.Tree
