import Verif.Cache.Spec
import Verif.HashMap.Props
/-! # Lemmas for C38 -/
namespace Verif.Cache
open HashMap HashMap.Spec

/-- number of cache bindings to the object `h` -/
def bnd (m : List (Bytes × Nat)) (h : Nat) : Nat := (m.map (·.2)).count h

structure ObjInv (kind : Nat → Nat) (o : Nat → Obj) (objs : Nat → Obj) (m : List (Bytes × Nat)) (u : Users) : Prop where
  rc : ∀ h, (objs h).refcount = u.holds h + bnd m h
  freed : ∀ h, (objs h).freed = true ↔ u.offered h = true ∧ (objs h).refcount = 0
  unseen : ∀ h, u.offered h = false → (objs h).refcount = 0
  flags : ∀ h, u.offered h = true → (objs h).flags = kind h
  static : ∀ h, (objs h).oid = (o h).oid ∧ (objs h).type = (o h).type ∧ (objs h).size = (o h).size
  keys : ∀ p, p ∈ m → p.1 = (o p.2).oid

theorem ObjInv.perm {kind : Nat → Nat} {o objs : Nat → Obj} {m m' : List (Bytes × Nat)} {u : Users} (h : ObjInv kind o objs m u) (hp : m.Perm m') :
    ObjInv kind o objs m' u :=
  ⟨fun x => by rw [h.rc x]; unfold bnd; rw [(hp.map _).count_eq], h.freed, h.unseen, h.flags, h.static, fun p hp' => h.keys p (hp.mem_iff.2 hp')⟩

theorem bnd_cons (p : Bytes × Nat) (m : List (Bytes × Nat)) (h : Nat) : bnd (p :: m) h = bnd m h + (if p.2 = h then 1 else 0) := by
  unfold bnd
  rw [List.map_cons, List.count_cons]
  simp

theorem mem_bnd {m : List (Bytes × Nat)} {p : Bytes × Nat} (h : p ∈ m) : 0 < bnd m p.2 := List.count_pos_iff.2 (List.mem_map.2 ⟨p, h, rfl⟩)

/-- releasing the reference of a cache binding -/
theorem decref_unbind {kind : Nat → Nat} {o : Nat → Obj} {w : World} {id : Bytes} {h : Nat} {m : List (Bytes × Nat)} {u : Users}
    (hi : ObjInv kind o w.objs ((id, h) :: m) u) :
    ∃ objs, decref w h = .ok { w with objs := objs } ∧ ObjInv kind o objs m u := by
  have r := hi.rc h
  rw [bnd_cons, if_pos rfl] at r
  have s : u.offered h = true := by
    cases hs : u.offered h with
    | true => rfl
    | false => have := hi.unseen h hs; omega
  refine ⟨upd w.objs h { w.objs h with refcount := (w.objs h).refcount - 1, freed := decide ((w.objs h).refcount = 1) }, ?_, ?_⟩
  · unfold decref
    rw [if_neg]
    rw [hi.freed]
    rintro (⟨_, c⟩ | c) <;> omega
  · constructor
    · intro x
      by_cases hx : x = h
      · subst hx; rw [upd_same]; dsimp only; omega
      · rw [upd_ne _ _ hx, hi.rc x, bnd_cons, if_neg (Ne.symm hx)]; omega
    · intro x
      by_cases hx : x = h
      · subst hx; rw [upd_same]; dsimp only; rw [s]; simp only [decide_eq_true_eq, true_and]; omega
      · rw [upd_ne _ _ hx]; exact hi.freed x
    · intro x hx'
      by_cases hx : x = h
      · subst hx; rw [s] at hx'; cases hx'
      · rw [upd_ne _ _ hx]; exact hi.unseen x hx'
    · intro x hx'
      by_cases hx : x = h
      · subst hx; rw [upd_same]; exact hi.flags x hx'
      · rw [upd_ne _ _ hx]; exact hi.flags x hx'
    · intro x
      by_cases hx : x = h
      · subst hx; rw [upd_same]; exact hi.static x
      · rw [upd_ne _ _ hx]; exact hi.static x
    · intro p hp; exact hi.keys p (List.mem_cons_of_mem _ hp)

/-- taking a reference for a cache binding -/
theorem incref_bind {kind : Nat → Nat} {o : Nat → Obj} {w : World} {h : Nat} {m : List (Bytes × Nat)} {u : Users}
    (hi : ObjInv kind o w.objs m u) (hh : 0 < u.holds h) :
    ∃ objs, incref w h = .ok { w with objs := objs } ∧ ObjInv kind o objs (((o h).oid, h) :: m) u := by
  have r := hi.rc h
  have s : u.offered h = true := by
    cases hs : u.offered h with
    | true => rfl
    | false => have := hi.unseen h hs; omega
  refine ⟨upd w.objs h { w.objs h with refcount := (w.objs h).refcount + 1 }, ?_, ?_⟩
  · unfold incref
    rw [if_neg]
    rw [hi.freed]
    rintro ⟨_, c⟩
    omega
  · constructor
    · intro x
      by_cases hx : x = h
      · subst hx; rw [upd_same, bnd_cons, if_pos rfl]; dsimp only; omega
      · rw [upd_ne _ _ hx, hi.rc x, bnd_cons, if_neg (Ne.symm hx)]; rfl
    · intro x
      by_cases hx : x = h
      · subst hx; rw [upd_same]; dsimp only; rw [hi.freed, s]; simp only [true_and]; omega
      · rw [upd_ne _ _ hx]; exact hi.freed x
    · intro x hx'
      by_cases hx : x = h
      · subst hx; rw [s] at hx'; cases hx'
      · rw [upd_ne _ _ hx]; exact hi.unseen x hx'
    · intro x hx'
      by_cases hx : x = h
      · subst hx; rw [upd_same]; exact hi.flags x hx'
      · rw [upd_ne _ _ hx]; exact hi.flags x hx'
    · intro x
      by_cases hx : x = h
      · subst hx; rw [upd_same]; exact hi.static x
      · rw [upd_ne _ _ hx]; exact hi.static x
    · intro p hp
      rcases List.mem_cons.1 hp with rfl | hp
      · rfl
      · exact hi.keys p hp

/-- handing out a reference -/
theorem incref_give {kind : Nat → Nat} {o : Nat → Obj} {w : World} {h : Nat} {m : List (Bytes × Nat)} {u : Users}
    (hi : ObjInv kind o w.objs m u) (hh : (w.objs h).freed = false) (s : u.offered h = true) :
    ∃ objs, incref w h = .ok { w with objs := objs } ∧ ObjInv kind o objs m (u.give (some h)) := by
  refine ⟨upd w.objs h { w.objs h with refcount := (w.objs h).refcount + 1 }, ?_, ?_⟩
  · unfold incref
    rw [if_neg]
    rw [hh]; decide
  · have g : ∀ x, (u.give (some h)).offered x = u.offered x := fun _ => rfl
    constructor
    · intro x
      by_cases hx : x = h
      · subst hx; rw [upd_same]; simp only [Users.give, if_true, hi.rc x]; omega
      · rw [upd_ne _ _ hx, hi.rc x]; simp only [Users.give, if_neg hx]
    · intro x
      rw [g]
      by_cases hx : x = h
      · subst hx; rw [upd_same]; dsimp only; rw [hh]
        simp
      · rw [upd_ne _ _ hx]; exact hi.freed x
    · intro x hx'
      rw [g] at hx'
      by_cases hx : x = h
      · subst hx; rw [s] at hx'; cases hx'
      · rw [upd_ne _ _ hx]; exact hi.unseen x hx'
    · intro x hx'
      rw [g] at hx'
      by_cases hx : x = h
      · subst hx; rw [upd_same]; exact hi.flags x hx'
      · rw [upd_ne _ _ hx]; exact hi.flags x hx'
    · intro x
      by_cases hx : x = h
      · subst hx; rw [upd_same]; exact hi.static x
      · rw [upd_ne _ _ hx]; exact hi.static x
    · exact hi.keys

/-- returning a reference -/
theorem decref_take {kind : Nat → Nat} {o : Nat → Obj} {w : World} {h : Nat} {m : List (Bytes × Nat)} {u : Users}
    (hi : ObjInv kind o w.objs m u) (hh : 0 < u.holds h) :
    ∃ objs, decref w h = .ok { w with objs := objs } ∧
      ObjInv kind o objs m { u with holds := fun h' => if h' = h then u.holds h' - 1 else u.holds h' } := by
  have r := hi.rc h
  have s : u.offered h = true := by
    cases hs : u.offered h with
    | true => rfl
    | false => have := hi.unseen h hs; omega
  refine ⟨upd w.objs h { w.objs h with refcount := (w.objs h).refcount - 1, freed := decide ((w.objs h).refcount = 1) }, ?_, ?_⟩
  · unfold decref
    rw [if_neg]
    rw [hi.freed]
    rintro (⟨_, c⟩ | c) <;> omega
  · constructor
    · intro x
      by_cases hx : x = h
      · subst hx; rw [upd_same]; simp only [if_true]; omega
      · rw [upd_ne _ _ hx, hi.rc x]; simp only [if_neg hx]
    · intro x
      by_cases hx : x = h
      · subst hx; rw [upd_same]; dsimp only; rw [s]; simp only [decide_eq_true_eq, true_and]; omega
      · rw [upd_ne _ _ hx]; exact hi.freed x
    · intro x hx'
      by_cases hx : x = h
      · subst hx; dsimp only at hx'; rw [s] at hx'; cases hx'
      · rw [upd_ne _ _ hx]; exact hi.unseen x hx'
    · intro x hx'
      by_cases hx : x = h
      · subst hx; rw [upd_same]; exact hi.flags x hx'
      · rw [upd_ne _ _ hx]; exact hi.flags x hx'
    · intro x
      by_cases hx : x = h
      · subst hx; rw [upd_same]; exact hi.static x
      · rw [upd_ne _ _ hx]; exact hi.static x
    · exact hi.keys

def total (o : Nat → Obj) (m : List (Bytes × Nat)) : Nat := (m.map (fun p => (o p.2).size)).sum

theorem total_perm {o : Nat → Obj} {m m' : List (Bytes × Nat)} (h : m.Perm m') : total o m = total o m' := (h.map _).sum_nat

/-- everything about a state, `m` being the contents of the cache -/
structure CInv (hash : Bytes → Nat) (kind : Nat → Nat) (o : Nat → Obj) (w : World) (m : List (Bytes × Nat)) (u : Users) : Prop where
  rel : Rel hash w.map m
  obj : ObjInv kind o w.objs m u
  used : w.used = total o m

theorem decrefAll_ok {kind : Nat → Nat} {o : Nat → Obj} {u : Users} (m : List (Bytes × Nat)) : ∀ (w : World), ObjInv kind o w.objs m u →
    ∃ objs, decrefAll m w = .ok { w with objs := objs } ∧ ObjInv kind o objs [] u := by
  induction m with
  | nil => intro w hi; exact ⟨w.objs, rfl, hi⟩
  | cons p m ih =>
    intro w hi
    obtain ⟨id, h⟩ := p
    obtain ⟨objs, e, hi'⟩ := decref_unbind hi
    obtain ⟨objs', e', hi''⟩ := ih { w with objs := objs } hi'
    refine ⟨objs', ?_, hi''⟩
    unfold decrefAll
    rw [e]
    exact e'

/-- a state that differs from `w` in the objects, the contents of the cache and the two counters, the latter by the same amount -/
structure Moved (w w' : World) : Prop where
  enabled : w'.enabled = w.enabled
  maxStorage : w'.maxStorage = w.maxStorage
  maxSize : w'.maxSize = w.maxSize
  delta : w'.current - w'.used = w.current - w.used

theorem clearCache_ok {hash : Bytes → Nat} {kind : Nat → Nat} {o : Nat → Obj} {w : World} {m : List (Bytes × Nat)} {u : Users}
    (hi : CInv hash kind o w m u) : ∃ w', clearCache w = .ok w' ∧ CInv hash kind o w' [] u ∧ Moved w w' := by
  unfold clearCache
  by_cases hs : w.map.size = 0
  · rw [if_pos hs]
    have : m = [] := by rw [hi.rel.size] at hs; exact List.eq_nil_of_length_eq_zero hs
    subst this
    exact ⟨w, rfl, hi, rfl, rfl, rfl, rfl⟩
  · rw [if_neg hs]
    obtain ⟨objs, e, hi'⟩ := decrefAll_ok (entries w.map) w (hi.obj.perm hi.rel.entries_perm.symm)
    rw [e]
    refine ⟨_, rfl, ⟨⟨(clear_ok hi.rel.inv).1, by simp, ?_⟩, hi', by simp [total]⟩, rfl, rfl, rfl, ?_⟩
    · intro k v
      simp only [List.not_mem_nil, iff_false]
      exact (clear_ok hi.rel.inv).2 k v
    · dsimp only; omega

theorem iterate_ok {hash : Bytes → Nat} {h : Map Bytes Nat} (hi : HashMap.Inv hash h) : ∀ fuel it,
    ∃ r, iterate h fuel it = .ok r ∧ ∀ k v it', r = some (k, v, it') → Has h k v := by
  intro fuel
  induction fuel with
  | zero => intro it; exact ⟨none, rfl, by simp⟩
  | succ fuel ih =>
    intro it
    unfold iterate
    by_cases c1 : it < h.n
    · rw [if_pos c1]
      by_cases c2 : h.flag it = .live
      · rw [if_pos c2]
        obtain ⟨⟨k, v⟩, e⟩ := hi.kvok it c2
        rw [e]
        refine ⟨_, rfl, ?_⟩
        intro k' v' it' hh
        simp only [Option.some.injEq, Prod.mk.injEq] at hh
        obtain ⟨rfl, rfl, _⟩ := hh
        exact ⟨it, c2, e⟩
      · rw [if_neg c2]; exact ih (it + 1)
    · rw [if_neg c1]; exact ⟨none, rfl, by simp⟩

theorem filter_perm {m : List (Bytes × Nat)} (hn : (m.map (·.1)).Nodup) {k : Bytes} {v : Nat} (h : (k, v) ∈ m) :
    m.Perm ((k, v) :: m.filter (fun p => p.1 ≠ k)) := by
  induction m with
  | nil => cases h
  | cons p m ih =>
    simp only [List.map_cons, List.nodup_cons] at hn
    rcases List.mem_cons.1 h with rfl | h
    · simp only [ne_eq, not_true, decide_false, Bool.false_eq_true, not_false_eq_true, List.filter_cons_of_neg]
      refine List.Perm.cons _ (List.Perm.of_eq ?_)
      symm
      rw [List.filter_eq_self]
      intro q hq
      simp only [ne_eq, decide_not, Bool.not_eq_eq_eq_not, Bool.not_true, decide_eq_false_iff_not]
      intro hc
      exact hn.1 (List.mem_map.2 ⟨q, hq, hc⟩)
    · have hp : p.1 ≠ k := by
        intro hc
        exact hn.1 (List.mem_map.2 ⟨_, h, hc.symm⟩)
      rw [List.filter_cons_of_pos (by simpa using hp)]
      exact ((ih hn.2 h).cons p).trans (List.Perm.swap _ _ _)

theorem remove_ok {hash : Bytes → Nat} {h : Map Bytes Nat} {m : List (Bytes × Nat)} (hr : Rel hash h m) {k : Bytes} {v : Nat} (hk : (k, v) ∈ m) :
    ∃ h', remove hash h k = .ok h' ∧ Rel hash h' (m.filter (fun p => p.1 ≠ k)) := by
  obtain ⟨h', e, hi, has, _⟩ := remove_spec hr.inv k ⟨v, (hr.has k v).2 hk⟩
  refine ⟨h', e, hi, filter_nodup hr.nodup _, ?_⟩
  intro k' w
  rw [has, hr.has]
  simp

theorem evictLoop_ok {hash : Bytes → Nat} {kind : Nat → Nat} {o : Nat → Obj} {u : Users} (count : Nat) : ∀ (it : Nat) (ev : Int) (w : World) (m : List (Bytes × Nat)),
    Rel hash w.map m → ObjInv kind o w.objs m u → w.used - ev = total o m →
    ∃ w' m', evictLoop hash count it ev w = .ok w' ∧ CInv hash kind o w' m' u ∧ m'.Subset m ∧ Moved w w' := by
  induction count with
  | zero =>
    intro it ev w m hr ho hu
    exact ⟨_, m, rfl, ⟨hr, ho, hu⟩, fun _ h => h, rfl, rfl, rfl, by dsimp only; omega⟩
  | succ count ih =>
    intro it ev w m hr ho hu
    unfold evictLoop
    obtain ⟨r, e, hr'⟩ := iterate_ok hr.inv (w.map.n - it + 1) it
    rw [e, Res.bind_ok]
    cases r with
    | none => exact ⟨_, m, rfl, ⟨hr, ho, hu⟩, fun _ h => h, rfl, rfl, rfl, by dsimp only; omega⟩
    | some q =>
      obtain ⟨key, h, it'⟩ := q
      have hm : (key, h) ∈ m := (hr.has key h).1 (hr' key h it' rfl)
      have hp := filter_perm hr.nodup hm
      have ho' := ho.perm hp
      have hf : ¬ (w.objs h).freed = true := by
        rw [ho.freed, ho.rc]
        have := mem_bnd hm
        rintro ⟨_, c⟩
        dsimp only at this
        omega
      simp only [if_neg hf]
      obtain ⟨h', e', rel'⟩ := remove_ok hr hm
      rw [e']
      dsimp only
      obtain ⟨objs, e2, ho2⟩ := decref_unbind (w := { w with map := h' }) ho'
      rw [e2, Res.bind_ok]
      obtain ⟨w', m', e3, c3, s3, mv⟩ := ih it' (ev + (w.objs h).size) { w with map := h', objs := objs } (m.filter (fun p => p.1 ≠ key)) rel' ho2 (by
        dsimp only
        rw [(ho.static h).2.2]
        have : total o m = total o ((key, h) :: m.filter (fun p => p.1 ≠ key)) := total_perm hp
        unfold total at this hu ⊢
        rw [List.map_cons, List.sum_cons] at this
        dsimp only at this
        omega)
      exact ⟨w', m', e3, c3, fun _ h => List.mem_of_mem_filter (s3 h), mv.1, mv.2, mv.3, mv.4⟩

theorem evictEntries_ok {hash : Bytes → Nat} {kind : Nat → Nat} {o : Nat → Obj} {w : World} {m : List (Bytes × Nat)} {u : Users}
    (hi : CInv hash kind o w m u) : ∃ w' m', evictEntries hash w = .ok w' ∧ CInv hash kind o w' m' u ∧ m'.Subset m ∧ Moved w w' := by
  unfold evictEntries
  by_cases c : evictCount w.map.size > w.map.size
  · rw [if_pos c]
    obtain ⟨w', e, h1, h2⟩ := clearCache_ok hi
    exact ⟨w', [], e, h1, List.nil_subset _, h2⟩
  · rw [if_neg c]
    exact evictLoop_ok _ 0 0 w m hi.rel hi.obj (by rw [hi.used]; omega)

theorem put_rel {hash : Bytes → Nat} {h : Map Bytes Nat} {m : List (Bytes × Nat)} (hr : Rel hash h m) (hs : m.length < 2 ^ 30) (k : Bytes) (v : Nat) :
    ∃ h', put hash h k v = .ok h' ∧ Rel hash h' ((k, v) :: m.filter (fun p => p.1 ≠ k)) := by
  obtain ⟨h', e, r⟩ := HashMap.step_ok hr hs (.put k v)
  exact ⟨h', e, r⟩

end Verif.Cache
