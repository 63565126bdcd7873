import Verif.Cache.Lemmas
/-! # C38: the object cache -/
namespace Verif.Cache
open HashMap HashMap.Spec

theorem cached_iff {hash : Bytes → Nat} {w : World} {m : List (Bytes × Nat)} (hr : Rel hash w.map m) (id : Bytes) (h : Nat) : Cached hash w id h ↔ (id, h) ∈ m := by
  unfold Cached
  rw [get_rel hr, ← lookup_eq hr.nodup]
  cases lookup m id with
  | none => simp
  | some v => simp

theorem get_cases {hash : Bytes → Nat} {w : World} {m : List (Bytes × Nat)} (hr : Rel hash w.map m) (id : Bytes) :
    (∃ h, HashMap.get hash w.map id = .ok h ∧ (id, h) ∈ m) ∨ HashMap.get hash w.map id = .err (-3) ∧ ∀ h, (id, h) ∉ m := by
  rw [get_rel hr]
  cases hl : lookup m id with
  | some v => exact .inl ⟨v, rfl, (lookup_eq hr.nodup id v).1 hl⟩
  | none =>
    refine .inr ⟨rfl, ?_⟩
    intro h hm
    rw [(lookup_eq hr.nodup id h).2 hm] at hl
    cases hl

theorem live_of_bound {kind : Nat → Nat} {o objs : Nat → Obj} {m : List (Bytes × Nat)} {u : Users} (hi : ObjInv kind o objs m u) {p : Bytes × Nat} (hm : p ∈ m) :
    (objs p.2).freed = false ∧ u.offered p.2 = true := by
  have hb := mem_bnd hm
  have r := hi.rc p.2
  constructor
  · cases hf : (objs p.2).freed with
    | false => rfl
    | true => have := ((hi.freed p.2).1 hf).2; omega
  · cases hf : u.offered p.2 with
    | true => rfl
    | false => have := hi.unseen p.2 hf; omega

theorem cacheGet_ok {hash : Bytes → Nat} {kind : Nat → Nat} {o : Nat → Obj} {w : World} {m : List (Bytes × Nat)} {u : Users}
    (hi : CInv hash kind o w m u) (id : Bytes) (flags : Nat) (locks : Bool) :
    ∃ r w', cacheGet hash w id flags locks = .ok (r, w') ∧ CInv hash kind o w' m (u.give r) ∧ Moved w w' ∧ w'.map = w.map ∧
      (∀ h, r = some h ↔ w.enabled = true ∧ locks = true ∧ (id, h) ∈ m ∧ (flags = 0 ∨ kind h = flags)) := by
  unfold cacheGet
  by_cases c1 : ¬ w.enabled = true ∨ ¬ locks = true
  · rw [if_pos c1]
    refine ⟨none, w, rfl, hi, ⟨rfl, rfl, rfl, rfl⟩, rfl, ?_⟩
    intro h
    simp only [reduceCtorEq, false_iff]
    rintro ⟨a, b, _⟩
    rcases c1 with c | c
    · exact c a
    · exact c b
  rw [if_neg c1]
  have he : w.enabled = true ∧ locks = true := by
    cases hw : w.enabled <;> cases hl : locks <;> simp_all
  rcases get_cases hi.rel id with ⟨h, e, hm⟩ | ⟨e, hno⟩
  · rw [e]
    dsimp only
    obtain ⟨hf, hs⟩ := live_of_bound hi.obj hm
    dsimp only at hf hs
    rw [if_neg (by rw [hf]; decide)]
    have huniq : ∀ h', (id, h') ∈ m → h' = h := by
      intro h' hm'
      have a := (lookup_eq hi.rel.nodup id h').2 hm'
      have b := (lookup_eq hi.rel.nodup id h).2 hm
      rw [a] at b
      exact Option.some.inj b
    by_cases c2 : flags ≠ 0 ∧ (w.objs h).flags ≠ flags
    · rw [if_pos c2]
      refine ⟨none, w, rfl, hi, ⟨rfl, rfl, rfl, rfl⟩, rfl, ?_⟩
      intro h'
      simp only [reduceCtorEq, false_iff]
      rintro ⟨_, _, hm', hk⟩
      have := huniq h' hm'
      subst this
      rw [hi.obj.flags h' hs] at c2
      rcases hk with hk | hk
      · exact c2.1 hk
      · exact c2.2 hk
    · rw [if_neg c2]
      obtain ⟨objs, e2, ho⟩ := incref_give hi.obj hf hs
      rw [e2, Res.bind_ok]
      refine ⟨some h, _, rfl, ⟨hi.rel, ho, hi.used⟩, ⟨rfl, rfl, rfl, rfl⟩, rfl, ?_⟩
      intro h'
      simp only [Option.some.injEq]
      constructor
      · rintro rfl
        refine ⟨he.1, he.2, hm, ?_⟩
        rw [hi.obj.flags h hs] at c2
        by_cases hz : flags = 0
        · exact .inl hz
        · exact .inr (Decidable.byContradiction fun hh => c2 ⟨hz, hh⟩)
      · rintro ⟨_, _, hm', _⟩
        exact (huniq h' hm').symm
  · rw [e]
    refine ⟨none, w, rfl, hi, ⟨rfl, rfl, rfl, rfl⟩, rfl, ?_⟩
    intro h
    simp only [reduceCtorEq, false_iff]
    rintro ⟨_, _, hm, _⟩
    exact hno h hm

theorem length_filter_cons_le {m : List (Bytes × Nat)} (k : Bytes) (v : Nat) : (((k, v) :: m.filter (fun p => p.1 ≠ k)).length ≤ m.length + 1) := by
  have : (m.filter (fun p => p.1 ≠ k)).length ≤ m.length := List.length_filter_le _ m
  simp only [List.length_cons]
  omega

/-- what a store leaves in the cache under the id of the object offered, given the contents before it looked the id up -/
def Kept (o : Nat → Obj) (kind : Nat → Nat) (h : Nat) (m m' : List (Bytes × Nat)) : Prop :=
  (∀ id x, id ≠ (o h).oid → ((id, x) ∈ m' ↔ (id, x) ∈ m)) ∧
  (∀ x, ((o h).oid, x) ∈ m' ↔
    (x = h ∧ ∀ y, ((o h).oid, y) ∈ m → kind y = RAW ∧ kind h = PARSED) ∨
    (((o h).oid, x) ∈ m ∧ ¬ (kind x = RAW ∧ kind h = PARSED)))

theorem filter_of_no_key {m : List (Bytes × Nat)} {k : Bytes} (h : ∀ v, (k, v) ∉ m) : m.filter (fun p => p.1 ≠ k) = m := by
  rw [List.filter_eq_self]
  intro p hp
  simp only [ne_eq, decide_not, Bool.not_eq_eq_eq_not, Bool.not_true, decide_eq_false_iff_not]
  rintro rfl
  exact h p.2 hp

/-- the end of a store, with a reference to `h` already counted as given to the caller -/
theorem file_ok {hash : Bytes → Nat} {kind : Nat → Nat} {o : Nat → Obj} (ho : Sane o) {w : World} {m : List (Bytes × Nat)} {u : Users} {h : Nat}
    (hi : CInv hash kind o w m (u.give (some h))) (hs : u.offered h = true) (hsz : m.length < 2 ^ 30) :
    ∃ x w' m', (match HashMap.get hash w.map (w.objs h).oid with
        | .ub => .ub
        | .err _ => insertEntry hash w h
        | .ok stored => replaceEntry hash w h stored) = Res.ok (x, w') ∧
      CInv hash kind o w' m' (u.give (some x)) ∧ Moved w w' ∧ m'.length ≤ m.length + 1 ∧ Kept o kind h m m' ∧
      (x = h ∨ ((o h).oid, x) ∈ m ∧ kind x = kind h) := by
  have hoid := (hi.obj.static h).1
  have hh : 0 < (u.give (some h)).holds h := by simp [Users.give]
  rcases get_cases hi.rel (w.objs h).oid with ⟨st, e, hm⟩ | ⟨e, hno⟩
  · rw [e]
    dsimp only
    unfold replaceEntry
    obtain ⟨hf, hst⟩ := live_of_bound hi.obj hm
    dsimp only at hf hst
    have hst' : u.offered st = true := hst
    rw [if_neg (by rw [hf]; decide), hi.obj.flags st hst, hi.obj.flags h hs]
    have huniq : ∀ h', ((w.objs h).oid, h') ∈ m → h' = st := by
      intro h' hm'
      have a := (lookup_eq hi.rel.nodup _ h').2 hm'
      have b := (lookup_eq hi.rel.nodup _ st).2 hm
      rw [a] at b
      exact Option.some.inj b
    by_cases c1 : kind st = kind h
    · rw [if_pos c1]
      obtain ⟨objs, e1, o1⟩ := decref_take hi.obj hh
      rw [e1, Res.bind_ok]
      have hu : { (u.give (some h)) with holds := fun h' => if h' = h then (u.give (some h)).holds h' - 1 else (u.give (some h)).holds h' } = u := by
        cases u with
        | mk holds offered =>
          simp only [Users.give, Users.mk.injEq, and_true]
          funext x
          by_cases hx : x = h
          · simp only [if_pos hx, Nat.add_sub_cancel]
          · simp only [if_neg hx]
      rw [hu] at o1
      obtain ⟨hf1, hs1⟩ := live_of_bound o1 hm
      obtain ⟨objs2, e2, o2⟩ := incref_give (w := { w with objs := objs }) o1 hf1 hs1
      rw [e2, Res.bind_ok]
      refine ⟨st, _, m, rfl, ⟨hi.rel, o2, hi.used⟩, ⟨rfl, rfl, rfl, rfl⟩, by omega, ⟨fun _ _ _ => Iff.rfl, ?_⟩, .inr ⟨by rw [← hoid]; exact hm, c1⟩⟩
      intro x
      have hnp : ¬ (kind st = RAW ∧ kind h = PARSED) := by
        rintro ⟨a, b⟩; rw [a, b] at c1; cases c1
      constructor
      · intro hx
        refine .inr ⟨hx, ?_⟩
        rw [← hoid] at hx
        rw [huniq x hx]; exact hnp
      · rintro (⟨_, hx⟩ | ⟨hx, _⟩)
        · exact absurd (hx st (by rw [← hoid]; exact hm)) hnp
        · exact hx
    rw [if_neg c1]
    by_cases c2 : kind st = RAW ∧ kind h = PARSED
    · rw [if_pos c2]
      obtain ⟨m', e1, r1⟩ := put_rel hi.rel hsz (w.objs h).oid h
      rw [e1]
      dsimp only
      have hp := filter_perm hi.rel.nodup hm
      obtain ⟨objs, e2, o2⟩ := decref_unbind (w := { w with map := m' }) (hi.obj.perm hp)
      rw [e2, Res.bind_ok]
      obtain ⟨objs2, e3, o3⟩ := incref_bind (w := { w with map := m', objs := objs }) o2 hh
      rw [e3, Res.bind_ok]
      refine ⟨h, _, _, rfl, ⟨r1, by rw [hoid]; rw [hoid] at o3; exact o3, ?_⟩, ⟨rfl, rfl, rfl, rfl⟩, length_filter_cons_le _ _, ⟨?_, ?_⟩, .inl rfl⟩
      · dsimp only
        rw [hi.used, total_perm hp]
        have hsize : (o st).size = (o h).size := by
          apply ho.size
          rw [← hi.obj.keys _ hm, hoid]
        simp only [total, List.map_cons, hsize]
      · intro id x hid
        rw [← hoid] at hid
        simp [hid]
      · intro x
        rw [hoid]
        simp only [List.mem_cons, Prod.mk.injEq, true_and, List.mem_filter, ne_eq, not_true, decide_false, Bool.false_eq_true, and_false, or_false]
        constructor
        · rintro rfl
          refine .inl ⟨rfl, ?_⟩
          intro y hy
          rw [← hoid] at hy
          rw [huniq y hy]; exact c2
        · rintro (⟨hx, _⟩ | ⟨hx, hnx⟩)
          · exact hx
          · rw [← hoid] at hx
            rw [huniq x hx] at hnx
            exact absurd c2 hnx
    · rw [if_neg c2]
      refine ⟨h, w, m, rfl, hi, ⟨rfl, rfl, rfl, rfl⟩, by omega, ⟨fun _ _ _ => Iff.rfl, ?_⟩, .inl rfl⟩
      intro x
      constructor
      · intro hx
        refine .inr ⟨hx, ?_⟩
        rw [← hoid] at hx
        rw [huniq x hx]; exact c2
      · rintro (⟨_, hx⟩ | ⟨hx, _⟩)
        · exact absurd (hx st (by rw [← hoid]; exact hm)) c2
        · exact hx
  · rw [e]
    dsimp only
    unfold insertEntry
    obtain ⟨m', e1, r1⟩ := put_rel hi.rel hsz (w.objs h).oid h
    rw [e1]
    dsimp only
    obtain ⟨objs, e2, o2⟩ := incref_bind (w := { w with map := m' }) hi.obj hh
    rw [e2, Res.bind_ok]
    have hflt : m.filter (fun p => p.1 ≠ (w.objs h).oid) = m := filter_of_no_key hno
    rw [hflt] at r1
    rw [hoid] at r1
    have hsz' : (objs h).size = (o h).size := (o2.static h).2.2
    refine ⟨h, _, _, rfl, ⟨r1, o2, ?_⟩, ⟨rfl, rfl, rfl, ?_⟩, by simp, ⟨?_, ?_⟩, .inl rfl⟩
    · dsimp only
      rw [hi.used, hsz']
      simp only [total, List.map_cons, List.sum_cons]
      omega
    · dsimp only; omega
    · intro id x hid
      simp [hid]
    · intro x
      rw [hoid] at hno
      simp only [List.mem_cons, Prod.mk.injEq, true_and]
      constructor
      · rintro (rfl | hx)
        · exact .inl ⟨rfl, fun y hy => absurd hy (hno y)⟩
        · exact absurd hx (hno x)
      · rintro (⟨hx, _⟩ | ⟨hx, _⟩)
        · exact .inl hx
        · exact absurd hx (hno x)

/-- offering an object: its flags are set and a reference to it is counted -/
theorem offer_ok {kind : Nat → Nat} {o : Nat → Obj} {w : World} {h : Nat} {m : List (Bytes × Nat)} {u : Users}
    (hi : ObjInv kind o w.objs m u) (ha : u.offered h = false ∨ 0 < u.holds h) :
    (w.objs h).freed = false ∧
    ∃ objs, incref { w with objs := upd w.objs h { w.objs h with flags := kind h } } h = .ok { w with objs := objs } ∧
      ObjInv kind o objs m ({ u with offered := fun h' => if h' = h then true else u.offered h' }.give (some h)) := by
  have hf : (w.objs h).freed = false := by
    cases hf : (w.objs h).freed with
    | false => rfl
    | true =>
      obtain ⟨a, b⟩ := (hi.freed h).1 hf
      have := hi.rc h
      rcases ha with c | c
      · rw [a] at c; cases c
      · omega
  refine ⟨hf, upd (upd w.objs h { w.objs h with flags := kind h }) h { w.objs h with flags := kind h, refcount := (w.objs h).refcount + 1 }, ?_, ?_⟩
  · unfold incref
    simp only [upd_same]
    rw [if_neg (by rw [hf]; decide)]
  · constructor
    · intro x
      by_cases hx : x = h
      · subst hx; rw [upd_same]; simp only [Users.give, if_true, hi.rc x]; omega
      · rw [upd_ne _ _ hx, upd_ne _ _ hx, hi.rc x]; simp only [Users.give, if_neg hx]
    · intro x
      by_cases hx : x = h
      · subst hx; rw [upd_same]; dsimp only; rw [hf]
        simp
      · rw [upd_ne _ _ hx, upd_ne _ _ hx, hi.freed x]; simp only [Users.give, if_neg hx]
    · intro x hx'
      by_cases hx : x = h
      · subst hx; simp [Users.give] at hx'
      · rw [upd_ne _ _ hx, upd_ne _ _ hx]
        simp only [Users.give, if_neg hx] at hx'
        exact hi.unseen x hx'
    · intro x hx'
      by_cases hx : x = h
      · subst hx; rw [upd_same]
      · rw [upd_ne _ _ hx, upd_ne _ _ hx]
        simp only [Users.give, if_neg hx] at hx'
        exact hi.flags x hx'
    · intro x
      by_cases hx : x = h
      · subst hx; rw [upd_same]; exact hi.static x
      · rw [upd_ne _ _ hx, upd_ne _ _ hx]; exact hi.static x
    · exact hi.keys

/-- the store happens: the cache is enabled, the object is small enough for its type and the lock could be taken -/
def Takes (o : Nat → Obj) (w : World) (h : Nat) (locks : Bool) : Prop :=
  w.enabled = true ∧ (o h).size < w.maxSize (o h).type ∧ locks = true

theorem store_ok {hash : Bytes → Nat} {kind : Nat → Nat} {o : Nat → Obj} (ho : Sane o) {w : World} {m : List (Bytes × Nat)} {u : Users} {h : Nat} (locks : Bool)
    (hi : CInv hash kind o w m u) (ha : u.offered h = false ∨ 0 < u.holds h) (hsz : m.length < 2 ^ 30) :
    ∃ x w' m', store hash w (kind h) h locks = .ok (x, w') ∧
      CInv hash kind o w' m' ({ u with offered := fun h' => if h' = h then true else u.offered h' }.give (some x)) ∧ Moved w w' ∧ m'.length ≤ m.length + 1 ∧
      (Takes o w h locks → ∃ m1, m1.Subset m ∧ (w.current ≤ w.maxStorage → m1 = m) ∧ Kept o kind h m1 m' ∧ (x = h ∨ ((o h).oid, x) ∈ m1 ∧ kind x = kind h)) ∧
      (¬ Takes o w h locks → x = h ∧ (m' = m ∨ m' = [] ∧ w.enabled = false)) := by
  obtain ⟨hf, objs, e1, o1⟩ := offer_ok hi.obj ha
  unfold store
  rw [if_neg (by rw [hf]; decide)]
  unfold cacheStore
  rw [e1, Res.bind_ok]
  have ci : CInv hash kind o { w with objs := objs } m ({ u with offered := fun h' => if h' = h then true else u.offered h' }.give (some h)) := ⟨hi.rel, o1, hi.used⟩
  by_cases c1 : ¬ w.enabled = true ∧ w.used > 0
  · rw [if_pos c1]
    have hen : w.enabled = false := by simpa using c1.1
    have hnt : ¬ Takes o w h locks := fun t => c1.1 t.1
    cases locks with
    | true =>
      simp only [if_true]
      obtain ⟨w', e2, c2, mv⟩ := clearCache_ok ci
      rw [e2, Res.bind_ok]
      exact ⟨h, w', [], rfl, c2, ⟨mv.1, mv.2, mv.3, mv.4⟩, by simp, fun t => absurd t hnt, fun _ => ⟨rfl, .inr ⟨rfl, hen⟩⟩⟩
    | false =>
      simp only [Bool.false_eq_true, if_false, Res.bind_ok]
      exact ⟨h, _, m, rfl, ci, ⟨rfl, rfl, rfl, rfl⟩, by omega, fun t => absurd t hnt, fun _ => ⟨rfl, .inl rfl⟩⟩
  rw [if_neg c1]
  obtain ⟨s1, s2, s3⟩ := o1.static h
  unfold shouldStore
  dsimp only
  rw [s2, s3, if_neg (by have := ho.type h; omega), Res.bind_ok]
  by_cases c2 : (w.enabled && decide ((o h).size < w.maxSize (o h).type)) = true
  · rw [if_neg (by simp only [c2]; simp)]
    have c2' : w.enabled = true ∧ (o h).size < w.maxSize (o h).type := by simpa using c2
    cases locks with
    | false =>
      rw [if_pos (by decide)]
      exact ⟨h, _, m, rfl, ci, ⟨rfl, rfl, rfl, rfl⟩, by omega, fun t => absurd t.2.2 (by decide), fun _ => ⟨rfl, .inl rfl⟩⟩
    | true =>
      rw [if_neg (by decide)]
      unfold storeLocked
      have ev : ∃ w1 m1, relieve hash { w with objs := objs } = Res.ok w1 ∧
          CInv hash kind o w1 m1 ({ u with offered := fun h' => if h' = h then true else u.offered h' }.give (some h)) ∧ m1.Subset m ∧ Moved { w with objs := objs } w1 ∧
          (w.current ≤ w.maxStorage → m1 = m) := by
        unfold relieve
        by_cases c3 : w.current > w.maxStorage
        · rw [if_pos c3]
          obtain ⟨w1, m1, a, b, c, d⟩ := evictEntries_ok ci
          exact ⟨w1, m1, a, b, c, d, fun h => by omega⟩
        · rw [if_neg c3]
          exact ⟨_, m, rfl, ci, fun _ h => h, ⟨rfl, rfl, rfl, rfl⟩, fun _ => rfl⟩
      obtain ⟨w1, m1, a, b, c, d, f⟩ := ev
      rw [a, Res.bind_ok]
      have hlen : m1.length ≤ m.length := by
        have hnd : m1.Nodup := List.Nodup.of_map _ b.rel.nodup
        exact (List.subperm_of_subset hnd c).length_le
      obtain ⟨x, w', m', e3, c3, mv, l3, k3, x3⟩ := file_ok (u := { u with offered := fun h' => if h' = h then true else u.offered h' }) ho b (by simp) (by omega)
      exact ⟨x, w', m', e3, c3, ⟨mv.1.trans d.1, mv.2.trans d.2, mv.3.trans d.3, mv.4.trans d.4⟩, by omega, fun _ => ⟨m1, c, f, k3, x3⟩, fun t => absurd ⟨c2'.1, c2'.2, rfl⟩ t⟩
  · rw [if_pos (by simp only [Bool.not_eq_true] at c2; simp only [c2]; decide)]
    refine ⟨h, _, m, rfl, ci, ⟨rfl, rfl, rfl, rfl⟩, by omega, fun t => ?_, fun _ => ⟨rfl, .inl rfl⟩⟩
    exfalso
    apply c2
    simp only [Bool.and_eq_true, decide_eq_true_eq]
    exact ⟨t.1, t.2.1⟩

theorem step_ok {hash : Bytes → Nat} {kind : Nat → Nat} {o : Nat → Obj} (ho : Sane o) {w : World} {m : List (Bytes × Nat)} {u : Users} {op : Op}
    (hi : CInv hash kind o w m u) (ha : Allowed u op) (hsz : m.length < 2 ^ 30) :
    ∃ r w' m', step hash kind w op = .ok (r, w') ∧ CInv hash kind o w' m' (u.after op r) ∧ m'.length ≤ m.length + 1 ∧
      ((∀ d, op ≠ .other d) → w'.current - w'.used = w.current - w.used) := by
  cases op with
  | store h locks =>
    obtain ⟨x, w', m', e, c, mv, l, _⟩ := store_ok ho locks hi ha hsz
    refine ⟨some x, w', m', ?_, c, l, fun _ => mv.4⟩
    simp only [step]
    rw [e]
    rfl
  | get id flags locks =>
    obtain ⟨r, w', e, c, mv, _⟩ := cacheGet_ok hi id flags locks
    exact ⟨r, w', m, e, c, by omega, fun _ => mv.4⟩
  | clear locks =>
    simp only [step, cacheClear]
    cases locks with
    | true =>
      obtain ⟨w', e, c, mv⟩ := clearCache_ok hi
      rw [if_pos rfl, e]
      exact ⟨none, w', [], rfl, c, by simp, fun _ => mv.4⟩
    | false => exact ⟨none, w, m, rfl, hi, by omega, fun _ => rfl⟩
  | release h =>
    obtain ⟨objs, e, c⟩ := decref_take hi.obj ha
    simp only [step]
    rw [e]
    exact ⟨none, _, m, rfl, ⟨hi.rel, c, hi.used⟩, by omega, fun _ => rfl⟩
  | enable b => exact ⟨none, _, m, rfl, ⟨hi.rel, hi.obj, hi.used⟩, by omega, fun _ => rfl⟩
  | limits a b => exact ⟨none, _, m, rfl, ⟨hi.rel, hi.obj, hi.used⟩, by omega, fun _ => rfl⟩
  | other d => exact ⟨none, _, m, rfl, ⟨hi.rel, hi.obj, hi.used⟩, by omega, fun h => absurd rfl (h d)⟩

theorem reach_inv {hash : Bytes → Nat} {kind : Nat → Nat} {o : Nat → Obj} (ho : Sane o) {n : Nat} {w : World} {u : Users} (h : Reach hash kind o n w u) (hn : n < 2 ^ 30) :
    ∃ m, CInv hash kind o w m u ∧ m.length ≤ n := by
  induction h with
  | @start w f =>
    refine ⟨[], ⟨by rw [f.map]; exact rel_init hash, ?_, by rw [f.used]; rfl⟩, by simp⟩
    rw [f.objs]
    exact ⟨fun h => by rw [(f.counts h).1]; rfl, fun h => by rw [(f.counts h).2]; simp, fun h _ => (f.counts h).1, fun h hc => (by cases hc), fun h => ⟨rfl, rfl, rfl⟩, by simp⟩
  | next _ ha he ih =>
    obtain ⟨m, c, l⟩ := ih (by omega)
    obtain ⟨r', w', m', e, c', l', _⟩ := step_ok ho c ha (by omega)
    rw [he] at e
    have e := Res.ok.inj e
    simp only [Prod.mk.injEq] at e
    obtain ⟨rfl, rfl⟩ := e
    exact ⟨m', c', by omega⟩

/-! ### theorems -/

/-- **C38 (no use after free).** After any history of fewer than 2^30 calls that keeps to the rules, every further call that keeps to the rules
completes: no freed object is touched, no reference count goes below zero. -/
theorem C38_defined {hash : Bytes → Nat} {kind : Nat → Nat} {o : Nat → Obj} (ho : Sane o) {n : Nat} {w : World} {u : Users} {op : Op}
    (h : Reach hash kind o n w u) (hn : n < 2 ^ 30) (ha : Allowed u op) : ∃ r w', step hash kind w op = .ok (r, w') := by
  obtain ⟨m, c, l⟩ := reach_inv ho h hn
  obtain ⟨r, w', m', e, _⟩ := step_ok ho c ha (by omega)
  exact ⟨r, w', e⟩

/-- **C38 (reference counts).** At any time the reference count of an object is the number of references its users hold, plus one when it is
in the cache; and an object has been freed exactly when it had been offered, nobody holds a reference and it is not in the cache. -/
theorem C38_refcount {hash : Bytes → Nat} {kind : Nat → Nat} {o : Nat → Obj} (ho : Sane o) {n : Nat} {w : World} {u : Users}
    (hr : Reach hash kind o n w u) (hn : n < 2 ^ 30) (h : Nat) :
    ((∃ id, Cached hash w id h) → (w.objs h).refcount = u.holds h + 1) ∧
    ((∀ id, ¬ Cached hash w id h) → (w.objs h).refcount = u.holds h) ∧
    ((w.objs h).freed = true ↔ u.offered h = true ∧ u.holds h = 0 ∧ ∀ id, ¬ Cached hash w id h) := by
  obtain ⟨m, c, l⟩ := reach_inv ho hr hn
  have hc : ∀ id, Cached hash w id h ↔ (id, h) ∈ m := fun id => cached_iff c.rel id h
  have b1 : (∃ id, Cached hash w id h) → bnd m h = 1 := by
    rintro ⟨id, hid⟩
    rw [hc] at hid
    have hp := filter_perm c.rel.nodup hid
    have : bnd m h = bnd ((id, h) :: m.filter (fun p => p.1 ≠ id)) h := by unfold bnd; rw [(hp.map _).count_eq]
    rw [this, bnd_cons, if_pos rfl]
    have z : bnd (m.filter (fun p => p.1 ≠ id)) h = 0 := by
      unfold bnd
      rw [List.count_eq_zero]
      intro hm
      obtain ⟨q, hq, hqh⟩ := List.mem_map.1 hm
      rw [List.mem_filter] at hq
      have h1 := c.obj.keys q hq.1
      have h2 := c.obj.keys _ hid
      rw [hqh] at h1
      have : q.1 ≠ id := by simpa using hq.2
      exact this (h1.trans h2.symm)
    omega
  have b0 : (∀ id, ¬ Cached hash w id h) → bnd m h = 0 := by
    intro hno
    unfold bnd
    rw [List.count_eq_zero]
    intro hm
    obtain ⟨q, hq, hqh⟩ := List.mem_map.1 hm
    apply hno q.1
    rw [hc, ← hqh]
    exact hq
  have r := c.obj.rc h
  refine ⟨fun hh => by rw [r, b1 hh], fun hh => by rw [r, b0 hh]; rfl, ?_⟩
  rw [c.obj.freed, r]
  constructor
  · rintro ⟨a, b⟩
    refine ⟨a, by omega, ?_⟩
    intro id hid
    have := b1 ⟨id, hid⟩
    omega
  · rintro ⟨a, b, d⟩
    exact ⟨a, by rw [b, b0 d]⟩

/-- **C38 (memory account).** `used_memory` is the sum of the sizes of the objects in the cache, each counted once; and every call changes the
global counter by exactly what it changes this cache's account. -/
theorem C38_account {hash : Bytes → Nat} {kind : Nat → Nat} {o : Nat → Obj} (ho : Sane o) {n : Nat} {w : World} {u : Users}
    (hr : Reach hash kind o n w u) (hn : n < 2 ^ 30) :
    (∃ contents : List (Bytes × Nat), (contents.map (·.1)).Nodup ∧ (∀ id h, (id, h) ∈ contents ↔ Cached hash w id h) ∧
      w.used = (contents.map (fun p => (w.objs p.2).size)).sum) ∧
    ∀ op r w', Allowed u op → (∀ d, op ≠ .other d) → step hash kind w op = .ok (r, w') → w'.current - w.current = w'.used - w.used := by
  obtain ⟨m, c, l⟩ := reach_inv ho hr hn
  refine ⟨⟨m, c.rel.nodup, fun id h => (cached_iff c.rel id h).symm, ?_⟩, ?_⟩
  · rw [c.used]
    unfold total
    congr 2
    apply List.map_congr_left
    intro p _
    exact (c.obj.static p.2).2.2.symm
  · intro op r w' ha hd he
    obtain ⟨r2, w2, m2, e, _, _, h⟩ := step_ok ho c ha (by omega)
    rw [he] at e
    have e := Res.ok.inj e
    simp only [Prod.mk.injEq] at e
    obtain ⟨rfl, rfl⟩ := e
    have := h hd
    omega

/-- **C38 (lookup).** A lookup hands out an object exactly when the cache is enabled, the lock could be taken and an object of that id and kind is
in the cache; it then is that object, which has that id and is alive. The cache's contents do not change. -/
theorem C38_get {hash : Bytes → Nat} {kind : Nat → Nat} {o : Nat → Obj} (ho : Sane o) {n : Nat} {w : World} {u : Users}
    (hr : Reach hash kind o n w u) (hn : n < 2 ^ 30) (id : Bytes) (flags : Nat) (locks : Bool) :
    ∃ r w', step hash kind w (.get id flags locks) = .ok (r, w') ∧
      (∀ h, r = some h ↔ w.enabled = true ∧ locks = true ∧ Cached hash w id h ∧ (flags = ANY ∨ kind h = flags)) ∧
      (∀ h, r = some h → (o h).oid = id ∧ (w'.objs h).freed = false ∧ (w'.objs h).flags = kind h) ∧
      ∀ id' h, Cached hash w' id' h ↔ Cached hash w id' h := by
  obtain ⟨m, c, l⟩ := reach_inv ho hr hn
  obtain ⟨r, w', e, c', mv, em, hg⟩ := cacheGet_ok c id flags locks
  refine ⟨r, w', e, ?_, ?_, ?_⟩
  · intro h
    rw [hg, cached_iff c.rel]
    rfl
  · intro h hh
    obtain ⟨_, _, hm, _⟩ := (hg h).1 hh
    obtain ⟨a, b⟩ := live_of_bound c'.obj hm
    exact ⟨(c.obj.keys _ hm).symm, a, c'.obj.flags h b⟩
  · intro id' h
    rw [cached_iff c.rel, cached_iff c'.rel]

/-- **C38 (store).** When the cache takes the object (it is enabled, the object is small enough, the lock is free), then afterwards the id is bound:
to the object offered if there was none, or if a raw one was there and a parsed one is offered; otherwise to the one that was there.
Other ids keep their binding, unless the memory limit is exceeded and they are evicted; nothing else enters the cache. The caller gets the object it
offered or one of the same kind and id that was in the cache. -/
theorem C38_store {hash : Bytes → Nat} {kind : Nat → Nat} {o : Nat → Obj} (ho : Sane o) {n : Nat} {w : World} {u : Users} {h : Nat} {locks : Bool}
    (hr : Reach hash kind o n w u) (hn : n < 2 ^ 30) (ha : Allowed u (.store h locks)) :
    ∃ x w', step hash kind w (.store h locks) = .ok (some x, w') ∧
      (x = h ∨ Cached hash w (o h).oid x ∧ kind x = kind h) ∧
      (w.enabled = true → (o h).size < w.maxSize (o h).type → locks = true →
        (∃ y, Cached hash w' (o h).oid y) ∧
        (∀ id y, Cached hash w' id y → Cached hash w id y ∨ id = (o h).oid ∧ y = h) ∧
        (w.current ≤ w.maxStorage →
          (∀ id y, id ≠ (o h).oid → (Cached hash w' id y ↔ Cached hash w id y)) ∧
          ((∀ y, ¬ Cached hash w (o h).oid y) → Cached hash w' (o h).oid h) ∧
          ∀ y, Cached hash w (o h).oid y → Cached hash w' (o h).oid (if kind y = RAW ∧ kind h = PARSED then h else y))) := by
  obtain ⟨m, c, l⟩ := reach_inv ho hr hn
  obtain ⟨x, w', m', e, c', mv, l', ht, hnt⟩ := store_ok ho locks c ha (by omega)
  refine ⟨x, w', by simp only [step]; rw [e]; rfl, ?_, ?_⟩
  · by_cases t : Takes o w h locks
    · obtain ⟨m1, s, _, _, hx⟩ := ht t
      rcases hx with hx | ⟨hx, hk⟩
      · exact .inl hx
      · exact .inr ⟨(cached_iff c.rel _ _).2 (s hx), hk⟩
    · exact .inl (hnt t).1
  · intro h1 h2 h3
    obtain ⟨m1, s, hmax, ⟨k1, k2⟩, _⟩ := ht ⟨h1, h2, h3⟩
    refine ⟨?_, ?_, ?_⟩
    · by_cases hy : ∃ y, ((o h).oid, y) ∈ m1 ∧ ¬ (kind y = RAW ∧ kind h = PARSED)
      · obtain ⟨y, a, b⟩ := hy
        exact ⟨y, (cached_iff c'.rel _ _).2 ((k2 y).2 (.inr ⟨a, b⟩))⟩
      · refine ⟨h, (cached_iff c'.rel _ _).2 ((k2 h).2 (.inl ⟨rfl, ?_⟩))⟩
        intro y hm
        exact Decidable.byContradiction fun hh => hy ⟨y, hm, hh⟩
    · intro id y hy
      rw [cached_iff c'.rel] at hy
      by_cases hid : id = (o h).oid
      · subst hid
        rcases (k2 y).1 hy with ⟨a, _⟩ | ⟨a, _⟩
        · exact .inr ⟨rfl, a⟩
        · exact .inl ((cached_iff c.rel _ _).2 (s a))
      · exact .inl ((cached_iff c.rel _ _).2 (s ((k1 id y hid).1 hy)))
    · intro hle
      have := hmax hle
      subst this
      refine ⟨?_, ?_, ?_⟩
      · intro id y hid
        rw [cached_iff c'.rel, cached_iff c.rel]
        exact k1 id y hid
      · intro hno
        rw [cached_iff c'.rel]
        refine (k2 h).2 (.inl ⟨rfl, ?_⟩)
        intro y hy
        exact absurd ((cached_iff c.rel _ _).2 hy) (hno y)
      · intro y hy
        rw [cached_iff c.rel] at hy
        rw [cached_iff c'.rel]
        by_cases hk : kind y = RAW ∧ kind h = PARSED
        · rw [if_pos hk]
          refine (k2 h).2 (.inl ⟨rfl, ?_⟩)
          intro y' hy'
          have a := (lookup_eq c.rel.nodup _ y).2 hy
          have b := (lookup_eq c.rel.nodup _ y').2 hy'
          rw [a] at b
          rw [← Option.some.inj b]
          exact hk
        · rw [if_neg hk]
          exact (k2 y).2 (.inr ⟨hy, hk⟩)

/-- **C38 (stability).** Whatever call is made, an id whose binding survives it is still bound to the same object, unless that call offered another object
under that id. -/
theorem C38_stable {hash : Bytes → Nat} {kind : Nat → Nat} {o : Nat → Obj} (ho : Sane o) {n : Nat} {w w' : World} {u : Users} {op : Op} {r : Option Nat}
    (hr : Reach hash kind o n w u) (hn : n < 2 ^ 30) (ha : Allowed u op) (he : step hash kind w op = .ok (r, w')) {id : Bytes} {y : Nat} (hy : Cached hash w' id y) :
    Cached hash w id y ∨ ∃ locks, op = .store y locks ∧ id = (o y).oid := by
  obtain ⟨m, c, l⟩ := reach_inv ho hr hn
  cases op with
  | store h locks =>
    obtain ⟨x, w2, m', e, c', mv, l', ht, hnt⟩ := store_ok ho locks c ha (by omega)
    have e2 : step hash kind w (.store h locks) = .ok (some x, w2) := by simp only [step]; rw [e]; rfl
    rw [he] at e2
    have e2 := Res.ok.inj e2
    simp only [Prod.mk.injEq] at e2
    obtain ⟨rfl, rfl⟩ := e2
    rw [cached_iff c'.rel] at hy
    rw [cached_iff c.rel]
    by_cases t : Takes o w h locks
    · obtain ⟨m1, s, _, ⟨k1, k2⟩, _⟩ := ht t
      by_cases hid : id = (o h).oid
      · subst hid
        rcases (k2 y).1 hy with ⟨rfl, _⟩ | ⟨a, _⟩
        · exact .inr ⟨locks, rfl, rfl⟩
        · exact .inl (s a)
      · exact .inl (s ((k1 id y hid).1 hy))
    · rcases (hnt t).2 with rfl | ⟨rfl, _⟩
      · exact .inl hy
      · cases hy
  | get id' flags locks =>
    obtain ⟨r', w2, e, c', mv, em, _⟩ := cacheGet_ok c id' flags locks
    have e2 : step hash kind w (.get id' flags locks) = .ok (r', w2) := e
    rw [he] at e2
    have e2 := Res.ok.inj e2
    simp only [Prod.mk.injEq] at e2
    obtain ⟨rfl, rfl⟩ := e2
    unfold Cached at hy ⊢
    rw [em] at hy
    exact .inl hy
  | clear locks =>
    simp only [step, cacheClear] at he
    cases locks with
    | false =>
      have he := Res.ok.inj he
      simp only [Prod.mk.injEq] at he
      obtain ⟨rfl, rfl⟩ := he
      exact .inl hy
    | true =>
      obtain ⟨w2, e, c', _⟩ := clearCache_ok c
      rw [if_pos rfl, e] at he
      have he := Res.ok.inj he
      simp only [Prod.mk.injEq] at he
      obtain ⟨rfl, rfl⟩ := he
      rw [cached_iff c'.rel] at hy
      cases hy
  | release h =>
    obtain ⟨objs, e, _⟩ := decref_take c.obj ha
    simp only [step] at he
    rw [e] at he
    have he := Res.ok.inj he
    simp only [Prod.mk.injEq] at he
    obtain ⟨rfl, rfl⟩ := he
    exact .inl hy
  | enable b =>
    have he := Res.ok.inj he
    simp only [Prod.mk.injEq] at he
    obtain ⟨rfl, rfl⟩ := he
    exact .inl hy
  | limits a b =>
    have he := Res.ok.inj he
    simp only [Prod.mk.injEq] at he
    obtain ⟨rfl, rfl⟩ := he
    exact .inl hy
  | other d =>
    have he := Res.ok.inj he
    simp only [Prod.mk.injEq] at he
    obtain ⟨rfl, rfl⟩ := he
    exact .inl hy

/-- **C38 (clear).** Clearing (with the lock) empties the cache and its account, and frees exactly the objects nobody holds. -/
theorem C38_clear {hash : Bytes → Nat} {kind : Nat → Nat} {o : Nat → Obj} (ho : Sane o) {n : Nat} {w : World} {u : Users}
    (hr : Reach hash kind o n w u) (hn : n < 2 ^ 30) : ∃ w', step hash kind w (.clear true) = .ok (none, w') ∧ w'.used = 0 ∧ (∀ id h, ¬ Cached hash w' id h) ∧
      ∀ id h, Cached hash w id h → ((w'.objs h).freed = true ↔ u.holds h = 0) := by
  obtain ⟨m, c, l⟩ := reach_inv ho hr hn
  obtain ⟨w', e, c', _⟩ := clearCache_ok c
  have hst : step hash kind w (.clear true) = .ok (none, w') := by
    simp only [step, cacheClear, if_true]
    rw [e]
    rfl
  refine ⟨w', hst, c'.used, ?_, ?_⟩
  · intro id h hc
    rw [cached_iff c'.rel] at hc
    cases hc
  · intro id h hc
    rw [cached_iff c.rel] at hc
    have hoff := (live_of_bound c.obj hc).2
    rw [c'.obj.freed, c'.obj.rc]
    simp [bnd, hoff]

/-! ### examples -/

/-- three objects: 0 and 1 are the raw and the parsed form of one commit, 2 is a tree -/
def exO : Nat → Obj
  | 0 => ⟨b!"aa", 1, 0, 10, 0, false⟩
  | 1 => ⟨b!"aa", 1, 0, 10, 0, false⟩
  | 2 => ⟨b!"bb", 2, 0, 20, 0, false⟩
  | _ => ⟨b!"cc", 3, 0, 0, 0, false⟩

def exKind : Nat → Nat
  | 0 => RAW
  | 1 => PARSED
  | 2 => RAW
  | _ => PARSED

def exW : World := ⟨exO, HashMap.init, 0, 0, true, 25, fun _ => 4096⟩

theorem exSane : Sane exO := by
  constructor
  · intro h
    match h with
    | 0 => decide
    | 1 => decide
    | 2 => decide
    | n + 3 => show 3 < 8; decide
  · intro h h' e
    match h, h' with
    | 0, 0 => rfl
    | 0, 1 => rfl
    | 1, 0 => rfl
    | 1, 1 => rfl
    | 2, 2 => rfl
    | 0, 2 => cases e
    | 1, 2 => cases e
    | 2, 0 => cases e
    | 2, 1 => cases e
    | 0, n + 3 => cases e
    | 1, n + 3 => cases e
    | 2, n + 3 => cases e
    | n + 3, 0 => cases e
    | n + 3, 1 => cases e
    | n + 3, 2 => cases e
    | n + 3, k + 3 => rfl

/-- a hash that lets the two ids collide -/
def exHash : Bytes → Nat := fun _ => 1

/-- The raw commit is stored and released, its parsed form replaces it (and the raw one is freed); the tree is stored; then the limit is exceeded,
the next store evicts everything and files the raw commit again. -/
def exRun : Res (List (Option Nat) × World) :=
  [Op.store 0 true, .release 0, .store 1 true, .release 1, .store 2 true, .get b!"aa" PARSED true, .get b!"aa" RAW true, .store 2 true].foldl
    (fun (s : Res (List (Option Nat) × World)) op => s.bind fun p => (step exHash exKind p.2 op).bind fun q => .ok (p.1 ++ [q.1], q.2)) (.ok ([], exW))

def exCheck : Res (List (Option Nat) × World) → Bool
  | .ok (rs, w) => rs = [some 0, none, some 1, none, some 2, some 1, none, some 2] && w.used = 20 && w.current = 20 &&
      (w.objs 0).freed && !(w.objs 1).freed && (w.objs 1).refcount = 1 && (w.objs 2).refcount = 3
  | _ => false

example : exCheck exRun = true := by decide +kernel

/-- histories of this kind are reachable in the sense of the theorems -/
example : ∃ w u, Reach exHash exKind exO 2 w u ∧ u.holds 0 = 0 ∧ Cached exHash w b!"aa" 0 := by
  have r0 : Reach exHash exKind exO 0 exW _ := .start ⟨rfl, rfl, rfl, fun h => by match h with | 0 => exact ⟨rfl, rfl⟩ | 1 => exact ⟨rfl, rfl⟩ | 2 => exact ⟨rfl, rfl⟩ | n + 3 => exact ⟨rfl, rfl⟩⟩
  obtain ⟨x, w1, e1, hx, hst⟩ := C38_store (h := 0) (locks := true) exSane r0 (by decide) (.inl rfl)
  have nc : ∀ y, ¬ Cached exHash exW (exO 0).oid y := by intro y hc; cases hc
  have hx0 : x = 0 := by
    rcases hx with hx | ⟨hx, _⟩
    · exact hx
    · exact absurd hx (nc x)
  subst hx0
  have r1 := Reach.next (op := .store 0 true) r0 (Or.inl rfl) e1
  obtain ⟨r, w2, e2⟩ := C38_defined (op := .release 0) exSane r1 (by decide) (by show 0 < _; decide)
  have r2 := Reach.next (op := .release 0) r1 (by show 0 < _; decide) e2
  have hc := ((hst rfl (by decide) rfl).2.2 (by decide)).2.1 nc
  refine ⟨w2, _, r2, rfl, ?_⟩
  simp only [step, decref] at e2
  split at e2
  · cases e2
  · have e2 := Res.ok.inj e2
    simp only [Prod.mk.injEq] at e2
    obtain ⟨_, rfl⟩ := e2
    exact hc

end Verif.Cache
