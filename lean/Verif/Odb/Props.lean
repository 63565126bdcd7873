import Verif.Odb.Spec3
import Verif.Odb.Lemmas9
/-! # Properties C67, C68, C69: the object database -/
namespace Verif.Odb
open Spec
open PackIdx.Spec (SamePrefix Padded)

variable {σ : Type} {ops : Ops σ} {Good : σ → Prop} {sees after : σ → Objs} {Valid : Bytes → Obj → Prop} {cfg : Cfg} {P : Obj → Prop}

/-! ## C67 -/

/-- **C67, reading**: if the backends do what they should, `git_odb_read` gives the object, with whatever backend it is in and whether or not that had been refreshed, and GIT_ENOTFOUND if
there is none. -/
theorem C67_read (H : Honest ops cfg.osz Good sees after Valid) (W : World cfg P) {db : Db σ} (S : Sound cfg P Good after db) {id : Bytes} (hi : id.length = cfg.osz) :
    (∀ o, (read cfg ops db id).2 = .ok o ↔ Avail cfg after db id o) ∧ ((read cfg ops db id).2 = .err (-3) ↔ ∀ o, ¬ Avail cfg after db id o) := by
  obtain ⟨_, _, _, h⟩ := read_spec H W S hi
  rcases h with ⟨o, h1, h2⟩ | ⟨h1, h2⟩
  · rw [h1]
    refine ⟨fun x => ⟨fun h => by injection h with h; rw [← h]; exact h2, fun h => by rw [avail_unique W S h h2]⟩, fun h => (by cases h), fun h => (h o h2).elim⟩
  · rw [h1]
    exact ⟨fun x => ⟨fun h => (by cases h), fun h => (h2 x h).elim⟩, fun _ => h2, fun _ => rfl⟩

/-- **C67, headers**: `git_odb_read_header` gives the length and the type of the object that `git_odb_read` gives. -/
theorem C67_header (H : Honest ops cfg.osz Good sees after Valid) (W : World cfg P) {db : Db σ} (S : Sound cfg P Good after db) {id : Bytes} (hi : id.length = cfg.osz) :
    (∀ o, Avail cfg after db id o → (readHeader cfg ops db id).2 = .ok (o.data.length, o.type)) ∧ ((∀ o, ¬ Avail cfg after db id o) → (readHeader cfg ops db id).2 = .err (-3)) := by
  obtain ⟨_, _, _, h⟩ := readHeader_spec H W S hi
  rcases h with ⟨o, h1, h2⟩ | ⟨h1, h2⟩
  · exact ⟨fun x hx => by rw [avail_unique W S hx h2, h1], fun h => (h o h2).elim⟩
  · exact ⟨fun x hx => (h2 x hx).elim, fun _ => h1⟩

/-- **C67, existence**: `git_odb_exists` says whether a backend has the object (it says no for the empty tree if none has it and it has not been read). -/
theorem C67_exists (H : Honest ops cfg.osz Good sees after Valid) (W : World cfg P) {db : Db σ} (S : Sound cfg P Good after db) {id : Bytes} (hi : id.length = cfg.osz) :
    ((exists' ops db id).2 = true → ∃ o, Avail cfg after db id o) ∧ (id ≠ cfg.emptyTree → (∃ o, Avail cfg after db id o) → (exists' ops db id).2 = true) ∧
    (Stored after db id → (exists' ops db id).2 = true) := by
  obtain ⟨_, _, h⟩ := exists_spec H W S hi
  refine ⟨fun e => ?_, fun hn ⟨o, ho⟩ => h.mpr ?_, fun hs => h.mpr (.inl hs)⟩
  · rcases h.mp e with ⟨s, hs, hh⟩ | ⟨o, ho⟩
    · obtain ⟨o, ho⟩ := Option.isSome_iff_exists.mp hh
      exact ⟨o, .inl ⟨s, hs, ho⟩⟩
    · exact ⟨o, S.cache _ ho⟩
  · rcases ho with ⟨s, hs, hh⟩ | ⟨he, _⟩
    · exact .inl ⟨s, hs, by unfold Has; rw [hh]; rfl⟩
    · exact (hn he).elim

/-- **C67, writing**: when `git_odb_write` succeeds it gives the id of the object, the object can be had under it, and otherwise nothing has changed; when it fails, nothing has. -/
theorem C67_write (H : Honest ops cfg.osz Good sees after Valid) (W : World cfg P) (hv : ∀ o, P o → Valid (cfg.idOf o) o) {db : Db σ} (S : Sound cfg P Good after db) {o : Obj} (hp : P o) :
    ((write cfg ops db o).2 = .ok (cfg.idOf o) ∧ ∀ i x, Avail cfg after (write cfg ops db o).1 i x ↔ Avail cfg after db i x ∨ (i = cfg.idOf o ∧ x = o)) ∨
    ((∃ e, e < 0 ∧ (write cfg ops db o).2 = .err e) ∧ ∀ i x, Avail cfg after (write cfg ops db o).1 i x ↔ Avail cfg after db i x) := by
  obtain ⟨_, _, _, h⟩ := write_spec H W hv S hp
  rcases h with ⟨h1, _, h3⟩ | ⟨e, h1, h2, h3, _⟩
  · exact .inl ⟨h1, h3⟩
  · exact .inr ⟨⟨e, h1, h2⟩, fun i x => avail_later h3⟩

/-- **C67, an object that was written is there**: whatever happened before, and in whichever backend; and a backend has it, also if it is the empty tree. -/
theorem C67_write_read (H : Honest ops cfg.osz Good sees after Valid) (W : World cfg P) (hv : ∀ o, P o → Valid (cfg.idOf o) o) {db : Db σ} (S : Sound cfg P Good after db) {o : Obj} (hp : P o)
    {id : Bytes} (h : (write cfg ops db o).2 = .ok id) : id = cfg.idOf o ∧ (read cfg ops (write cfg ops db o).1 id).2 = .ok o ∧ (exists' ops (write cfg ops db o).1 id).2 = true := by
  obtain ⟨S', _, _, hw⟩ := write_spec H W hv S hp
  rcases hw with ⟨h1, h2, h3⟩ | ⟨e, _, h2, _⟩
  · rw [h1] at h
    injection h with h
    subst h
    exact ⟨rfl, ((C67_read H W S' (W.len o hp)).1 o).mpr ((h3 _ _).mpr (.inr ⟨rfl, rfl⟩)), (C67_exists H W S' (W.len o hp)).2.2 h2⟩
  · rw [h2] at h; cases h

/-- **C67, alternates are not written to** -/
theorem C67_alternates (H : Honest ops cfg.osz Good sees after Valid) (W : World cfg P) (hv : ∀ o, P o → Valid (cfg.idOf o) o) {db : Db σ} (S : Sound cfg P Good after db) {o : Obj} (hp : P o) :
    List.Forall₂ (fun s t => t.alternate = s.alternate ∧ (s.alternate = true → after t.st = after s.st)) db.slots (write cfg ops db o).1.slots := by
  obtain ⟨_, _, h, _⟩ := write_spec H W hv S hp
  refine h.imp fun s t a => ⟨a.1, fun hs => ?_⟩
  rcases a.2 with h | ⟨h, _⟩
  · exact h
  · rw [hs] at h; cases h

/-- one step -/
theorem step_spec (H : Honest ops cfg.osz Good sees after Valid) (W : World cfg P) (hz : 2 ≤ cfg.osz) (hv : ∀ o, P o → Valid (cfg.idOf o) o) {db db' : Db σ} (S : Sound cfg P Good after db)
    (h : Step cfg ops P Good after db db') : Sound cfg P Good after db' ∧ ∀ id o, Avail cfg after db id o → Avail cfg after db' id o := by
  cases h with
  | read hi =>
    obtain ⟨l, S', _⟩ := read_spec H W S hi
    exact ⟨S', fun id o => (avail_later l).mpr⟩
  | header hi =>
    obtain ⟨l, S', _⟩ := readHeader_spec H W S hi
    exact ⟨S', fun id o => (avail_later l).mpr⟩
  | has hi =>
    obtain ⟨l, c, _⟩ := exists_spec H W S hi
    exact ⟨sound_later S l (by rw [c]; exact S.cache), fun id o => (avail_later l).mpr⟩
  | @readPrefix id len hi =>
    by_cases h4 : 4 ≤ len
    · obtain ⟨l, S', _⟩ := readPrefix_spec H W S hi hz h4
      exact ⟨S', fun id o => (avail_later l).mpr⟩
    · unfold readPrefix
      rw [if_pos (by unfold MINPREFIXLEN; omega)]
      exact ⟨S, fun _ _ h => h⟩
  | @hasPrefix id len hi =>
    by_cases h4 : 4 ≤ len
    · obtain ⟨l, S', _⟩ := existsPrefix_spec H W S hi h4
      exact ⟨S', fun id o => (avail_later l).mpr⟩
    · unfold existsPrefix
      rw [if_pos (by unfold MINPREFIXLEN; omega)]
      exact ⟨S, fun _ _ h => h⟩
  | refresh =>
    obtain ⟨l, _, c⟩ := refresh_spec H S.good
    have l' := l.imp fun _ _ => later_of_fresh
    exact ⟨sound_later S l' (by rw [c]; exact S.cache), fun id o => (avail_later l').mpr⟩
  | write hp =>
    obtain ⟨S', _⟩ := write_spec H W hv S hp
    refine ⟨S', fun id o h => ?_⟩
    rcases C67_write H W hv S hp with ⟨_, k⟩ | ⟨_, k⟩
    · exact (k id o).mpr (.inl h)
    · exact (k id o).mpr h
  | evict hc => exact ⟨⟨S.good, S.objs, fun x hx => S.cache x (hc x hx)⟩, fun _ _ h => h⟩
  | @others slots h1 h2 =>
    have mono : ∀ id o, Avail cfg after db id o → Avail cfg after (⟨slots, db.cache⟩ : Db σ) id o := by
      intro id o h
      rcases h with ⟨s, hs, h⟩ | h
      · exact .inl (h2 s hs id o h)
      · exact .inr h
    exact ⟨⟨fun t ht => (h1 t ht).1, fun t ht => (h1 t ht).2, fun x hx => mono _ _ (S.cache x hx)⟩, mono⟩

/-- **C67, in the course of time**: in all histories of calls, of evictions from the cache and of objects that others add, the database stays sound and no object is lost. -/
theorem C67_history (H : Honest ops cfg.osz Good sees after Valid) (W : World cfg P) (hz : 2 ≤ cfg.osz) (hv : ∀ o, P o → Valid (cfg.idOf o) o) {db db' : Db σ} (S : Sound cfg P Good after db)
    (h : Run cfg ops P Good after db db') : Sound cfg P Good after db' ∧ ∀ id o, Avail cfg after db id o → Avail cfg after db' id o := by
  induction h with
  | none => exact ⟨S, fun _ _ h => h⟩
  | more _ s ih =>
    obtain ⟨S', m⟩ := ih
    obtain ⟨S'', m'⟩ := step_spec H W hz hv S' s
    exact ⟨S'', fun id o h => m' id o (m id o h)⟩

/-- **C67, an id is an object**: an object that has been read, or written, is read under its id ever after, and it is the same one. -/
theorem C67_same (H : Honest ops cfg.osz Good sees after Valid) (W : World cfg P) (hz : 2 ≤ cfg.osz) (hv : ∀ o, P o → Valid (cfg.idOf o) o) {db db' : Db σ} (S : Sound cfg P Good after db)
    (h : Run cfg ops P Good after db db') {id : Bytes} (hi : id.length = cfg.osz) {o : Obj} :
    ((read cfg ops db id).2 = .ok o → (read cfg ops db' id).2 = .ok o ∧ cfg.idOf o = id) ∧
    (∀ db1, P o → Run cfg ops P Good after (write cfg ops db o).1 db1 → (write cfg ops db o).2 = .ok id → (read cfg ops db1 id).2 = .ok o) := by
  obtain ⟨S', m⟩ := C67_history H W hz hv S h
  refine ⟨fun k => ?_, fun db1 hp k hw => ?_⟩
  · have a := ((C67_read H W S hi).1 o).mp k
    exact ⟨((C67_read H W S' hi).1 o).mpr (m id o a), (avail_P W S a).2⟩
  · obtain ⟨S1, m1⟩ := C67_history H W hz hv (step_spec H W hz hv S (.write hp)).1 k
    obtain ⟨_, hr, _⟩ := C67_write_read H W hv S hp hw
    exact ((C67_read H W S1 hi).1 o).mpr (m1 id o (((C67_read H W (step_spec H W hz hv S (.write hp)).1 hi).1 o).mp hr))

/-! ## C68 -/

/-- **C68, abbreviated ids**: `git_odb_read_prefix` and `git_odb_exists_prefix` answer GIT_EAMBIGUOUS to less than four digits. Otherwise an answer is an object that begins with the digits, and there is no
other among those that the backends see; if GIT_ENOTFOUND, no backend has one that does, even once refreshed; if GIT_EAMBIGUOUS, there are two. There is no other answer. -/
theorem C68_read_prefix (H : Honest ops cfg.osz Good sees after Valid) (W : World cfg P) {db : Db σ} (S : Sound cfg P Good after db) {short : Bytes} {len : Nat}
    (hl : short.length = cfg.osz) (hz : 2 ≤ cfg.osz) :
    (len < 4 → (readPrefix cfg ops db short len).2 = .err (-5)) ∧
    (4 ≤ len →
      (∃ i o, (readPrefix cfg ops db short len).2 = .ok (i, o) ∧ Avail cfg after db i o ∧ SamePrefix (min len (2 * cfg.osz)) short i ∧
        ∀ j, Stored sees db j → SamePrefix (min len (2 * cfg.osz)) short j → j = i) ∨
      ((readPrefix cfg ops db short len).2 = .err (-3) ∧ ∀ j, Stored after db j → ¬ SamePrefix (min len (2 * cfg.osz)) short j) ∨
      ((readPrefix cfg ops db short len).2 = .err (-5) ∧ ∃ i j, Stored after db i ∧ Stored after db j ∧ i ≠ j ∧ SamePrefix (min len (2 * cfg.osz)) short i ∧ SamePrefix (min len (2 * cfg.osz)) short j)) := by
  refine ⟨fun h => ?_, fun h4 => ?_⟩
  · unfold readPrefix
    rw [if_pos (by unfold MINPREFIXLEN; omega)]
    rfl
  obtain ⟨_, _, hA, hv⟩ := readPrefix_spec H W S hl hz h4
  have up : ∀ i, Stored sees db i → Stored after db i := fun i h => stored_after H S.good h
  rcases hA with ⟨A1, A2⟩ | ⟨hn, o, hc, e⟩
  · generalize (readPrefix cfg ops db short len).2 = r at A1 A2 hv
    by_cases hm : ∃ i, Stored sees db i ∧ SamePrefix (min len (2 * cfg.osz)) short i
    · have L := A1 hm
      cases r with
      | ok x =>
        obtain ⟨i, o⟩ := x
        cases L with
        | one h1 h2 h3 => exact .inl ⟨i, o, rfl, hv i o rfl, h2, h3⟩
      | err e =>
        cases L with
        | none h =>
          obtain ⟨i, h1, h2⟩ := hm
          exact (h i h1 h2).elim
        | more h1 h2 h3 h4 h5 => exact .inr (.inr ⟨rfl, _, _, up _ h1, up _ h2, h3, h4, h5⟩)
      | ub => cases L
    · have hm' : ∀ i, Stored sees db i → ¬ SamePrefix (min len (2 * cfg.osz)) short i := fun i h1 h2 => hm ⟨i, h1, h2⟩
      have L := A2 hm'
      cases r with
      | ok x =>
        obtain ⟨i, o⟩ := x
        cases L with
        | one h1 h2 h3 => exact .inl ⟨i, o, rfl, hv i o rfl, h2, fun j hj hs => (hm' j hj hs).elim⟩
      | err e =>
        cases L with
        | none h => exact .inr (.inl ⟨rfl, h⟩)
        | more h1 h2 h3 h4 h5 => exact .inr (.inr ⟨rfl, _, _, h1, h2, h3, h4, h5⟩)
      | ub => cases L
  · refine .inl ⟨short, o, e, hv _ _ e, rfl, fun j hj hs => ?_⟩
    obtain ⟨s, hs', hh⟩ := up j hj
    obtain ⟨x, hx⟩ := Option.isSome_iff_exists.mp hh
    have hj' : j.length = cfg.osz := by
      have := S.objs s hs' j x hx
      rw [← this.2]
      exact W.len x this.1
    rw [Nat.min_eq_right hn] at hs
    exact ((PackIdx.samePrefix_full (by rw [hl, hj']) (by rw [hj']; exact Nat.le_refl _)).mp hs).symm

/-- **C68, the same for the question whether there is one** -/
theorem C68_exists_prefix (H : Honest ops cfg.osz Good sees after Valid) (W : World cfg P) {db : Db σ} (S : Sound cfg P Good after db) {short : Bytes} {len : Nat}
    (hl : short.length = cfg.osz) :
    (len < 4 → (existsPrefix cfg ops db short len).2 = .err (-5)) ∧
    (4 ≤ len →
      (∃ i o, (existsPrefix cfg ops db short len).2 = .ok i ∧ Avail cfg after db i o ∧ SamePrefix (min len (2 * cfg.osz)) short i ∧
        ∀ j, Stored sees db j → SamePrefix (min len (2 * cfg.osz)) short j → j = i) ∨
      ((existsPrefix cfg ops db short len).2 = .err (-3) ∧ ∀ j, Stored after db j → ¬ SamePrefix (min len (2 * cfg.osz)) short j) ∨
      ((existsPrefix cfg ops db short len).2 = .err (-5) ∧ ∃ i j, Stored after db i ∧ Stored after db j ∧ i ≠ j ∧ SamePrefix (min len (2 * cfg.osz)) short i ∧ SamePrefix (min len (2 * cfg.osz)) short j)) := by
  refine ⟨fun h => ?_, fun h4 => ?_⟩
  · unfold existsPrefix
    rw [if_pos (by unfold MINPREFIXLEN; omega)]
    rfl
  obtain ⟨_, _, _, hA⟩ := existsPrefix_spec H W S hl h4
  have up : ∀ i, Stored sees db i → Stored after db i := fun i h => stored_after H S.good h
  have av : ∀ i, Stored after db i → ∃ o, Avail cfg after db i o := by
    rintro i ⟨s, hs, hh⟩
    obtain ⟨o, ho⟩ := Option.isSome_iff_exists.mp hh
    exact ⟨o, .inl ⟨s, hs, ho⟩⟩
  have len' : ∀ j, Stored after db j → j.length = cfg.osz := by
    rintro j ⟨s, hs', hh⟩
    obtain ⟨x, hx⟩ := Option.isSome_iff_exists.mp hh
    have := S.objs s hs' j x hx
    rw [← this.2]
    exact W.len x this.1
  have full : ∀ j, 2 * cfg.osz ≤ len → Stored after db j → SamePrefix (min len (2 * cfg.osz)) short j → j = short := by
    intro j hn hj hs
    rw [Nat.min_eq_right hn] at hs
    exact ((PackIdx.samePrefix_full (by rw [hl, len' j hj]) (by rw [len' j hj]; exact Nat.le_refl _)).mp hs).symm
  generalize (existsPrefix cfg ops db short len).2 = r at hA
  rcases hA with ⟨hn, A1, A2⟩ | ⟨hn, rfl, h⟩ | ⟨hn, rfl, h, _⟩
  · rw [Nat.min_eq_left (Nat.le_of_lt hn)]
    by_cases hm : ∃ i, Stored sees db i ∧ SamePrefix len short i
    · have L := A1 hm
      cases L with
      | one h1 h2 h3 =>
        obtain ⟨o, ho⟩ := av _ (up _ h1)
        exact .inl ⟨_, o, rfl, ho, h2, h3⟩
      | none h =>
        obtain ⟨i, h1, h2⟩ := hm
        exact (h i h1 h2).elim
      | more h1 h2 h3 h4 h5 => exact .inr (.inr ⟨rfl, _, _, up _ h1, up _ h2, h3, h4, h5⟩)
    · have hm' : ∀ i, Stored sees db i → ¬ SamePrefix len short i := fun i h1 h2 => hm ⟨i, h1, h2⟩
      have L := A2 hm'
      cases L with
      | one h1 h2 h3 =>
        obtain ⟨o, ho⟩ := av _ h1
        exact .inl ⟨_, o, rfl, ho, h2, fun j hj hs => (hm' j hj hs).elim⟩
      | none h => exact .inr (.inl ⟨rfl, h⟩)
      | more h1 h2 h3 h4 h5 => exact .inr (.inr ⟨rfl, _, _, h1, h2, h3, h4, h5⟩)
  · have : ∃ o, Avail cfg after db short o := by
      rcases h with h | ⟨o, h⟩
      · exact av _ h
      · exact ⟨o, S.cache _ h⟩
    obtain ⟨o, ho⟩ := this
    exact .inl ⟨short, o, rfl, ho, rfl, fun j hj hs => full j hn (up j hj) hs⟩
  · refine .inr (.inl ⟨rfl, fun j hj hs => ?_⟩)
    rw [full j hn hj hs] at hj
    exact h hj

/-- **C68, enough of an id finds the object**: if only one of all objects that can be had begins with an abbreviation of at least four digits, and a backend has it (refreshed or not), it is found. -/
theorem C68_enough (H : Honest ops cfg.osz Good sees after Valid) (W : World cfg P) {db : Db σ} (S : Sound cfg P Good after db) {short i : Bytes} {o : Obj} {len : Nat}
    (hl : short.length = cfg.osz) (hz : 2 ≤ cfg.osz) (h4 : 4 ≤ len) (hi : Stored after db i) (ho : Avail cfg after db i o) (hs : SamePrefix (min len (2 * cfg.osz)) short i)
    (hu : ∀ j x, Avail cfg after db j x → SamePrefix (min len (2 * cfg.osz)) short j → j = i) :
    (readPrefix cfg ops db short len).2 = .ok (i, o) ∧ (existsPrefix cfg ops db short len).2 = .ok i := by
  have av : ∀ i, Stored after db i → ∃ o, Avail cfg after db i o := by
    rintro i ⟨s, hs, hh⟩
    obtain ⟨o, ho⟩ := Option.isSome_iff_exists.mp hh
    exact ⟨o, .inl ⟨s, hs, ho⟩⟩
  have hu' : ∀ j, Stored after db j → SamePrefix (min len (2 * cfg.osz)) short j → j = i := fun j hj k => (av j hj).elim fun x hx => hu j x hx k
  constructor
  · rcases (C68_read_prefix H W S hl hz).2 h4 with ⟨j, x, h1, h2, h3, _⟩ | ⟨_, h⟩ | ⟨_, a, c, h1, h2, hne, h3, h4⟩
    · have e := hu j x h2 h3
      subst e
      rw [h1, avail_unique W S h2 ho]
    · exact (h i hi hs).elim
    · exact (hne ((hu' a h1 h3).trans (hu' c h2 h4).symm)).elim
  · rcases (C68_exists_prefix H W S hl).2 h4 with ⟨j, x, h1, h2, h3, _⟩ | ⟨_, h⟩ | ⟨_, a, c, h1, h2, hne, h3, h4⟩
    · rw [h1, hu j x h2 h3]
    · exact (h i hi hs).elim
    · exact (hne ((hu' a h1 h3).trans (hu' c h2 h4).symm)).elim

/-! ## C69 -/

/-- **C69**: a directory of loose objects and a directory of packs do what backends should: so all of C67 and C68 holds of every repository's object database. -/
theorem C69_backends {osz : Nat} (h1 : 1 ≤ osz) (U : Bytes → Pk) : Honest backOps osz (BackGood osz U) (backSees osz) (backAfter osz) (fun id _ => id.length = osz) := backHonest h1

/-- **C69, refreshing** a directory of packs: what is open then is what was open and all packs in the directory that can be opened, each loaded under its own name, whether in the multi-pack-index or not. -/
theorem C69_refresh {osz : Nat} {U : Bytes → Pk} {b : PackB} (G : PackGood osz U b) (hf : b.folder = true) :
    (packRefresh b).2 = .ok () ∧ PackGood osz U (packRefresh b).1 ∧ ∀ p, p ∈ openPacks (packRefresh b).1 ↔ p ∈ openPacks b ++ diskPacks b := by
  obtain ⟨G', e, _, _, h⟩ := packRefresh_spec G
  exact ⟨e, G', h hf⟩

/-- **C69, a repository can be written to**: if there is a directory of loose objects that is not an alternate, and loose objects can be written, then `git_odb_write` succeeds. -/
theorem C69_write {U : Bytes → Pk} (W : World cfg P) (h1 : 1 ≤ cfg.osz) {db : Db Back} (S : Sound cfg P (fun s => BackGood cfg.osz U s ∧ Writable s) (backAfter cfg.osz) db)
    {b : LooseB} (hb : (⟨.loose b, false⟩ : Slot Back) ∈ db.slots) {o : Obj} (hp : P o) : (write cfg backOps db o).2 = .ok (cfg.idOf o) := by
  obtain ⟨_, _, _, h⟩ := write_spec (backHonest_rw h1) W (fun o hp => W.len o hp) S hp
  rcases h with ⟨h, _⟩ | ⟨e, _, _, _, h⟩
  · exact h
  · have := h _ hb fun t ht hc => by
      cases t with
      | loose c =>
        refine ⟨_, rfl, fun id x hv => ?_⟩
        obtain ⟨_, h⟩ := looseWrite_spec ht.1 h1 hv x
        rcases h with ⟨_, h, _⟩ | ⟨h, _⟩
        · exact h
        · rw [ht.2] at h; cases h
      | pack c => cases hc
    cases this

end Verif.Odb
