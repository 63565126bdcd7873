import Verif.Odb.Lemmas
/-! # Looking up full ids -/
namespace Verif.Odb
open Spec
open PackIdx.Spec (SamePrefix Padded)

variable {σ α : Type} {ops : Ops σ} {Good : σ → Prop} {sees after : σ → Objs} {Valid : Bytes → Obj → Prop} {osz : Nat} {cfg : Cfg} {P : Obj → Prop}

theorem avail_P (W : World cfg P) {db : Db σ} (S : Sound cfg P Good after db) {id : Bytes} {o : Obj} (h : Avail cfg after db id o) : P o ∧ cfg.idOf o = id := by
  rcases h with ⟨s, hs, h⟩ | ⟨rfl, rfl⟩
  · exact S.objs s hs _ _ h
  · exact W.empty

theorem avail_unique (W : World cfg P) {db : Db σ} (S : Sound cfg P Good after db) {id : Bytes} {a b : Obj} (ha : Avail cfg after db id a) (hb : Avail cfg after db id b) : a = b :=
  W.inj a b (avail_P W S ha).1 (avail_P W S hb).1 ((avail_P W S ha).2.trans (avail_P W S hb).2.symm)

theorem avail_nonzero (W : World cfg P) {db : Db σ} (S : Sound cfg P Good after db) {id : Bytes} {o : Obj} (h : Avail cfg after db id o) : isZero id = false := by
  obtain ⟨hp, rfl⟩ := avail_P W S h
  obtain ⟨c, hc, hn⟩ := W.nonzero o hp
  unfold isZero
  rw [List.all_eq_false]
  exact ⟨c, hc, by simpa using hn⟩

theorem avail_later {db db' : Db σ} (h : List.Forall₂ (Later ops Good sees after) db.slots db'.slots) {id : Bytes} {o : Obj} :
    Avail cfg after db' id o ↔ Avail cfg after db id o := by
  unfold Avail
  refine or_congr ⟨?_, ?_⟩ Iff.rfl
  · rintro ⟨t, ht, k⟩
    obtain ⟨s, hs, l⟩ := forall₂_mem h t ht
    exact ⟨s, hs, by rw [← l.after]; exact k⟩
  · rintro ⟨s, hs, k⟩
    obtain ⟨t, ht, l⟩ := forall₂_mem' h s hs
    exact ⟨t, ht, by rw [l.after]; exact k⟩

theorem stored_later {db db' : Db σ} (h : List.Forall₂ (Later ops Good sees after) db.slots db'.slots) {id : Bytes} :
    Stored after db' id ↔ Stored after db id := by
  unfold Stored
  constructor
  · rintro ⟨t, ht, k⟩
    obtain ⟨s, hs, l⟩ := forall₂_mem h t ht
    exact ⟨s, hs, by rw [← l.after]; exact k⟩
  · rintro ⟨s, hs, k⟩
    obtain ⟨t, ht, l⟩ := forall₂_mem' h s hs
    exact ⟨t, ht, by rw [l.after]; exact k⟩

/-- what is seen does not become less -/
theorem seen_later (H : Honest ops osz Good sees after Valid) {db db' : Db σ} (hg : ∀ s ∈ db.slots, Good s.st)
    (h : List.Forall₂ (Later ops Good sees after) db.slots db'.slots) {id : Bytes} (k : Stored sees db id) : Stored sees db' id := by
  obtain ⟨s, hs, k⟩ := k
  obtain ⟨t, ht, l⟩ := forall₂_mem' h s hs
  refine ⟨t, ht, ?_⟩
  rcases l.sees with e | e
  · rw [e]; exact k
  · rw [e]
    unfold Has at k ⊢
    obtain ⟨o, ho⟩ := Option.isSome_iff_exists.mp k
    rw [H.grows _ (hg s hs) _ _ ho]
    rfl

theorem sound_later {db db' : Db σ} (S : Sound cfg P Good after db) (h : List.Forall₂ (Later ops Good sees after) db.slots db'.slots)
    (hc : ∀ x ∈ db'.cache, Avail cfg after db x.1 x.2) : Sound cfg P Good after db' := by
  refine ⟨fun t ht => ?_, fun t ht id o k => ?_, fun x hx => (avail_later h).mpr (hc x hx)⟩
  · obtain ⟨s, hs, l⟩ := forall₂_mem h t ht
    exact l.good
  · obtain ⟨s, hs, l⟩ := forall₂_mem h t ht
    exact S.objs s hs id o (by rw [← l.after]; exact k)

theorem later_quiet {x y : List (Slot σ)} (h : List.Forall₂ (Quiet ops Good sees after) x y) : List.Forall₂ (Later ops Good sees after) x y := h.imp fun _ _ => later_of_quiet
theorem later_fresh {x y : List (Slot σ)} (h : List.Forall₂ (Fresh ops Good sees after) x y) : List.Forall₂ (Later ops Good sees after) x y := h.imp fun _ _ => later_of_fresh
theorem later_trans {x y z : List (Slot σ)} (h : List.Forall₂ (Later ops Good sees after) x y) (k : List.Forall₂ (Later ops Good sees after) y z) :
    List.Forall₂ (Later ops Good sees after) x z := forall₂_trans (fun _ _ _ a b => a.trans b) h k

theorem cacheGet_mem {c : List (Bytes × Obj)} {id : Bytes} {o : Obj} (h : cacheGet c id = some o) : (id, o) ∈ c := by
  induction c with
  | nil => cases h
  | cons x c ih =>
    obtain ⟨i, p⟩ := x
    unfold cacheGet at h
    split at h
    · rename_i e; subst e; injection h with h; subst h; simp
    · simp [ih h]

theorem cacheGet_none {c : List (Bytes × Obj)} {id : Bytes} (h : cacheGet c id = none) (o : Obj) : (id, o) ∉ c := by
  induction c with
  | nil => simp
  | cons x c ih =>
    obtain ⟨i, p⟩ := x
    unfold cacheGet at h
    split at h
    · cases h
    · rename_i e
      simp only [List.mem_cons, Prod.mk.injEq, not_or, not_and]
      exact ⟨fun h => (e h.symm).elim, ih h⟩

theorem finishRead_spec (W : World cfg P) {db : Db σ} (S : Sound cfg P Good after db) {slots : List (Slot σ)} {id : Bytes} {o : Obj}
    (hl : List.Forall₂ (Later ops Good sees after) db.slots slots) (ha : Avail cfg after db id o) :
    (finishRead cfg db.cache slots id o).2 = .ok o ∧ (finishRead cfg db.cache slots id o).1.slots = slots ∧ Sound cfg P Good after (finishRead cfg db.cache slots id o).1 ∧
    ∀ x ∈ db.cache, x ∈ (finishRead cfg db.cache slots id o).1.cache := by
  have hid := (avail_P W S ha).2
  unfold finishRead
  rw [if_neg (by simp [hid])]
  unfold cacheStore
  cases hc : cacheGet db.cache id with
  | none =>
    refine ⟨rfl, rfl, sound_later (db' := ⟨slots, (id, o) :: db.cache⟩) S hl fun x hx => ?_, fun x hx => by simp [hx]⟩
    rcases List.mem_cons.mp hx with rfl | hx
    · exact ha
    · exact S.cache x hx
  | some x =>
    have := avail_unique W S (S.cache _ (cacheGet_mem hc)) ha
    dsimp only at this ⊢
    subst this
    exact ⟨rfl, rfl, sound_later (db' := ⟨slots, db.cache⟩) S hl fun x hx => S.cache x hx, fun x hx => hx⟩

/-- the answer to reading -/
def SaysRead (sees : σ → Objs) (id : Bytes) (s : σ) : Res Obj → Prop
  | .ok o => sees s id = some o
  | _ => sees s id = none

/-- the answer to whether it exists -/
def SaysHas (sees : σ → Objs) (id : Bytes) (s : σ) : Res Unit → Prop
  | .ok _ => Has (sees s) id
  | _ => ¬ Has (sees s) id

theorem read_asks (H : Honest ops osz Good sees after Valid) {id : Bytes} (hi : id.length = osz) (s : Slot σ) (hg : Good s.st) :
    Quiet ops Good sees after s ⟨(ops.read s.st id).1, s.alternate⟩ ∧
    SaysRead sees id s.st (ops.read s.st id).2 ∧
    ((∃ x, (ops.read s.st id).2 = .ok x) ∨ (ops.read s.st id).2 = .err (-3) ∨ (ops.read s.st id).2 = .err (-30)) := by
  obtain ⟨a, b, c, d, e, f⟩ := H.read _ hg id hi
  refine ⟨⟨a, b, c, d, rfl⟩, ?_⟩
  cases hs : sees s.st id with
  | none =>
    rcases f hs with h | h <;> rw [h] <;> simp [hs, SaysRead]
  | some o =>
    rw [e o hs]
    exact ⟨hs, .inl ⟨o, rfl⟩⟩

theorem avail_seen (H : Honest ops osz Good sees after Valid) {db : Db σ} (hg : ∀ s ∈ db.slots, Good s.st) {s : Slot σ} (hs : s ∈ db.slots) {id : Bytes} {o : Obj}
    (h : sees s.st id = some o) : Avail cfg after db id o := .inl ⟨s, hs, H.grows _ (hg s hs) _ _ h⟩

theorem read1_spec (H : Honest ops osz Good sees after Valid) (W : World cfg P) {db : Db σ} (S : Sound cfg P Good after db) {id : Bytes} (hi : id.length = osz) (only : Bool) :
    List.Forall₂ (Quiet ops Good sees after) db.slots (read1 cfg ops id only db).1.slots ∧ Sound cfg P Good after (read1 cfg ops id only db).1 ∧
    (∀ x ∈ db.cache, x ∈ (read1 cfg ops id only db).1.cache) ∧
    ((∃ o, (read1 cfg ops id only db).2 = .ok o ∧ Avail cfg after db id o) ∨
      ((read1 cfg ops id only db).2 = .err (-3) ∧ (only = false → id ≠ cfg.emptyTree) ∧
        ∀ s ∈ db.slots, (only = false ∨ ops.canRefresh s.st = true) → sees s.st id = none)) := by
  unfold read1
  by_cases he : only = false ∧ id = cfg.emptyTree
  · rw [if_pos (by simp [he])]
    have ha : Avail cfg after db id ⟨2, []⟩ := .inr ⟨he.2, rfl⟩
    have hq := quiet_all (ops := ops) (sees := sees) (after := after) S.good
    obtain ⟨a, b, c, d⟩ := finishRead_spec W S (later_quiet hq) ha
    exact ⟨by rw [b]; exact hq, c, d, .inl ⟨_, a, ha⟩⟩
  · rw [if_neg (by intro h; apply he; simpa using h)]
    have hl := firstLoop_spec (ops := ops) (only := only) (f := fun s => ops.read s id) (R := SaysRead sees id) (fun s hg => read_asks H hi s hg) db.slots S.good
    generalize firstLoop ops only (fun s => ops.read s id) db.slots = r at hl ⊢
    obtain ⟨slots, r, p⟩ := r
    obtain ⟨q, hl⟩ := hl
    rcases hl with ⟨s, hs, o, hr, ho⟩ | ⟨hr, hn⟩
    · dsimp only at hr ho
      subst hr
      have ha : Avail cfg after db id o := avail_seen H S.good hs ho
      obtain ⟨a, b, c, d⟩ := finishRead_spec W S (later_quiet q) ha
      exact ⟨by rw [b]; exact q, c, d, .inl ⟨o, a, ha⟩⟩
    · dsimp only at hr hn
      subst hr
      refine ⟨q, sound_later (db' := ⟨slots, db.cache⟩) S (later_quiet q) fun x hx => S.cache x hx, fun x hx => hx, .inr ⟨rfl, fun ho h => he ⟨ho, h⟩, fun s hs hw => ?_⟩⟩
      rcases hn s hs hw with h | ⟨_, h⟩ <;> exact h

/-- nothing is seen, and after refreshing it is not seen either: it is not there -/
theorem not_avail {db db1 db2 : Db σ} {id : Bytes} (H : Honest ops osz Good sees after Valid) (hg : ∀ s ∈ db.slots, Good s.st)
    (q : List.Forall₂ (Quiet ops Good sees after) db.slots db1.slots) (f : List.Forall₂ (Fresh ops Good sees after) db1.slots db2.slots)
    (h1 : ∀ s ∈ db.slots, sees s.st id = none) (h2 : ∀ s ∈ db2.slots, ops.canRefresh s.st = true → sees s.st id = none) : ∀ s ∈ db.slots, after s.st id = none := by
  intro s hs
  cases hc : ops.canRefresh s.st with
  | false => rw [H.fixed _ (hg s hs) hc]; exact h1 s hs
  | true =>
    obtain ⟨t, ht, a⟩ := forall₂_mem' q s hs
    obtain ⟨u, hu, b⟩ := forall₂_mem' f t ht
    have := h2 u hu (by rw [b.can, a.can, hc])
    rw [b.sees, a.after] at this
    exact this

theorem read_spec (H : Honest ops osz Good sees after Valid) (W : World cfg P) {db : Db σ} (S : Sound cfg P Good after db) {id : Bytes} (hi : id.length = osz) :
    List.Forall₂ (Later ops Good sees after) db.slots (read cfg ops db id).1.slots ∧ Sound cfg P Good after (read cfg ops db id).1 ∧
    (∀ x ∈ db.cache, x ∈ (read cfg ops db id).1.cache) ∧
    ((∃ o, (read cfg ops db id).2 = .ok o ∧ Avail cfg after db id o) ∨ ((read cfg ops db id).2 = .err (-3) ∧ ∀ o, ¬ Avail cfg after db id o)) := by
  have hq0 := later_quiet (quiet_all (ops := ops) (sees := sees) (after := after) S.good)
  unfold read
  cases hz : isZero id with
  | true =>
    rw [if_pos rfl]
    refine ⟨hq0, S, fun x hx => hx, .inr ⟨rfl, fun o h => ?_⟩⟩
    rw [avail_nonzero W S h] at hz
    cases hz
  | false =>
    rw [if_neg (by simp)]
    cases hc : cacheGet db.cache id with
    | some o => exact ⟨hq0, S, fun x hx => hx, .inl ⟨o, rfl, S.cache _ (cacheGet_mem hc)⟩⟩
    | none =>
      dsimp only
      obtain ⟨q, S1, c1, h⟩ := read1_spec H W S hi false
      generalize read1 cfg ops id false db = r1 at q S1 c1 h ⊢
      obtain ⟨db1, r1⟩ := r1
      dsimp only at q S1 c1 h
      unfold again
      rcases h with ⟨o, rfl, ha⟩ | ⟨rfl, he, hn⟩
      · exact ⟨later_quiet q, S1, c1, .inl ⟨o, rfl, ha⟩⟩
      · rw [if_pos (by simp [ENOTFOUND])]
        obtain ⟨f, g, k⟩ := refresh_spec H S1.good
        generalize refresh ops db1 = r2 at f g k ⊢
        obtain ⟨db2, r2⟩ := r2
        dsimp only at f g k
        subst g
        dsimp only
        have S2 : Sound cfg P Good after db2 := sound_later S1 (later_fresh f) (by rw [k]; exact S1.cache)
        obtain ⟨q2, S3, c3, h⟩ := read1_spec H W S2 hi true
        have l12 := later_trans (later_quiet q) (later_fresh f)
        refine ⟨later_trans l12 (later_quiet q2), S3, fun x hx => c3 x (by rw [k]; exact c1 x hx), ?_⟩
        rcases h with ⟨o, ho, ha⟩ | ⟨ho, _, hn2⟩
        · exact .inl ⟨o, ho, (avail_later l12).mp ha⟩
        · refine .inr ⟨ho, fun o ha => ?_⟩
          have hno := not_avail H S.good q f (fun s hs => hn s hs (.inl rfl)) (fun s hs hw => hn2 s hs (.inr hw))
          rcases ha with ⟨s, hs, ha⟩ | ⟨ha, _⟩
          · rw [hno s hs] at ha; cases ha
          · exact he rfl ha

/-! ## `git_odb_exists` -/

theorem has_asks (H : Honest ops osz Good sees after Valid) {id : Bytes} (hi : id.length = osz) (s : Slot σ) (hg : Good s.st) :
    Quiet ops Good sees after s ⟨(ops.has s.st id).1, s.alternate⟩ ∧
    SaysHas sees id s.st (if (ops.has s.st id).2 then (.ok () : Res Unit) else .err ENOTFOUND) ∧
    ((∃ x, (if (ops.has s.st id).2 then (.ok () : Res Unit) else .err ENOTFOUND) = .ok x) ∨ (if (ops.has s.st id).2 then (.ok () : Res Unit) else .err ENOTFOUND) = .err (-3) ∨
      (if (ops.has s.st id).2 then (.ok () : Res Unit) else .err ENOTFOUND) = .err (-30)) := by
  obtain ⟨a, b, c, d, e⟩ := H.has _ hg id hi
  refine ⟨⟨a, b, c, d, rfl⟩, ?_⟩
  cases hh : (ops.has s.st id).2
  · rw [hh] at e
    simp [ENOTFOUND, SaysHas, Has, ← e]
  · rw [hh] at e
    simp [SaysHas, Has, ← e]

/-- a loop over all backends, then again over those that were refreshed: for answers with yes or no -/
theorem twice_spec (H : Honest ops osz Good sees after Valid) {db : Db σ} (hg : ∀ s ∈ db.slots, Good s.st) {f : σ → σ × Res Unit} {R : σ → Res Unit → Prop}
    (hf : ∀ s : Slot σ, Good s.st → Quiet ops Good sees after s ⟨(f s.st).1, s.alternate⟩ ∧ R s.st (f s.st).2 ∧
      ((∃ x, (f s.st).2 = .ok x) ∨ (f s.st).2 = .err (-3) ∨ (f s.st).2 = .err (-30)))
    (only : Bool) (r : Db σ × Bool)
    (hr : r = (⟨(firstLoop ops only f db.slots).1, db.cache⟩, match (firstLoop ops only f db.slots).2.1 with
      | .ok _ => true
      | _ => false)) :
    List.Forall₂ (Quiet ops Good sees after) db.slots r.1.slots ∧ r.1.cache = db.cache ∧
    (r.2 = true → ∃ s ∈ db.slots, R s.st (.ok ())) ∧
    (r.2 = false → ∀ s ∈ db.slots, (only = false ∨ ops.canRefresh s.st = true) → R s.st (.err (-3)) ∨ R s.st (.err (-30))) := by
  have hl := firstLoop_spec (ops := ops) (only := only) hf db.slots hg
  subst hr
  generalize firstLoop ops only f db.slots = l at hl ⊢
  obtain ⟨slots, l, p⟩ := l
  obtain ⟨q, hl⟩ := hl
  refine ⟨q, rfl, ?_⟩
  rcases hl with ⟨s, hs, x, hr, ho⟩ | ⟨hr, hn⟩
  · dsimp only at hr ho
    subst hr
    exact ⟨fun _ => ⟨s, hs, ho⟩, fun h => by cases h⟩
  · dsimp only at hr hn
    subst hr
    refine ⟨fun h => (by cases h), fun _ s hs hw => ?_⟩
    rcases hn s hs hw with h | ⟨_, h⟩
    · exact .inl h
    · exact .inr h

theorem exists1_spec (H : Honest ops osz Good sees after Valid) {db : Db σ} (hg : ∀ s ∈ db.slots, Good s.st) {id : Bytes} (hi : id.length = osz) (only : Bool) :
    List.Forall₂ (Quiet ops Good sees after) db.slots (exists1 ops id only db).1.slots ∧ (exists1 ops id only db).1.cache = db.cache ∧
    ((exists1 ops id only db).2 = true → Stored sees db id) ∧
    ((exists1 ops id only db).2 = false → ∀ s ∈ db.slots, (only = false ∨ ops.canRefresh s.st = true) → sees s.st id = none) := by
  obtain ⟨a, b, c, d⟩ := twice_spec (R := SaysHas sees id) H hg (fun s hg => has_asks H hi s hg) only (exists1 ops id only db) rfl
  refine ⟨a, b, c, fun h s hs hw => ?_⟩
  have : ¬ Has (sees s.st) id := by
    rcases d h s hs hw with h | h <;> exact h
  unfold Has at this
  simpa using this

theorem stored_after (H : Honest ops osz Good sees after Valid) {db : Db σ} (hg : ∀ s ∈ db.slots, Good s.st) {id : Bytes} (h : Stored sees db id) : Stored after db id := by
  obtain ⟨s, hs, h⟩ := h
  refine ⟨s, hs, ?_⟩
  unfold Has at h ⊢
  obtain ⟨o, ho⟩ := Option.isSome_iff_exists.mp h
  rw [H.grows _ (hg s hs) _ _ ho]
  rfl

theorem exists_spec (H : Honest ops osz Good sees after Valid) (W : World cfg P) {db : Db σ} (S : Sound cfg P Good after db) {id : Bytes} (hi : id.length = osz) :
    List.Forall₂ (Later ops Good sees after) db.slots (exists' ops db id).1.slots ∧ (exists' ops db id).1.cache = db.cache ∧
    ((exists' ops db id).2 = true ↔ (Stored after db id ∨ ∃ o, (id, o) ∈ db.cache)) := by
  have hq0 := later_quiet (quiet_all (ops := ops) (sees := sees) (after := after) S.good)
  unfold exists'
  cases hz : isZero id with
  | true =>
    rw [if_pos rfl]
    refine ⟨hq0, rfl, ⟨fun h => (by cases h), fun h => ?_⟩⟩
    have : ∃ o, Avail cfg after db id o := by
      rcases h with ⟨s, hs, h⟩ | ⟨o, h⟩
      · obtain ⟨o, ho⟩ := Option.isSome_iff_exists.mp h
        exact ⟨o, .inl ⟨s, hs, ho⟩⟩
      · exact ⟨o, S.cache _ h⟩
    obtain ⟨o, h⟩ := this
    rw [avail_nonzero W S h] at hz
    cases hz
  | false =>
    rw [if_neg (by simp)]
    cases hc : cacheGet db.cache id with
    | some o => exact ⟨hq0, rfl, ⟨fun _ => .inr ⟨o, cacheGet_mem hc⟩, fun _ => rfl⟩⟩
    | none =>
      have hnc : ¬ ∃ o, (id, o) ∈ db.cache := fun ⟨o, h⟩ => cacheGet_none hc o h
      simp only [Option.isSome_none, Bool.false_eq_true, if_false]
      obtain ⟨q, k1, t1, f1⟩ := exists1_spec H S.good hi false
      generalize exists1 ops id false db = r1 at q k1 t1 f1 ⊢
      obtain ⟨db1, r1⟩ := r1
      dsimp only at q k1 t1 f1
      cases r1 with
      | true => exact ⟨later_quiet q, k1, ⟨fun _ => .inl (stored_after H S.good (t1 rfl)), fun _ => rfl⟩⟩
      | false =>
        dsimp only
        have hg1 : ∀ s ∈ db1.slots, Good s.st := fun t ht => by
          obtain ⟨s, hs, l⟩ := forall₂_mem q t ht
          exact l.good
        obtain ⟨f, g, k⟩ := refresh_spec H hg1
        generalize refresh ops db1 = r2 at f g k ⊢
        obtain ⟨db2, r2⟩ := r2
        dsimp only at f g k
        subst g
        dsimp only
        have hg2 : ∀ s ∈ db2.slots, Good s.st := fun t ht => by
          obtain ⟨s, hs, l⟩ := forall₂_mem f t ht
          exact l.good
        obtain ⟨q2, k2, t2, f2⟩ := exists1_spec H hg2 hi true
        have l12 := later_trans (later_quiet q) (later_fresh f)
        refine ⟨later_trans l12 (later_quiet q2), by rw [k2, k, k1], ⟨fun h => .inl ((stored_later l12).mp (stored_after H hg2 (t2 h))), fun h => ?_⟩⟩
        rcases h with ⟨s, hs, h⟩ | h
        · cases hh : (exists1 ops id true db2).2 with
          | true => rfl
          | false =>
            have hno := not_avail H S.good q f (fun s hs => f1 rfl s hs (.inl rfl)) (fun s hs hw => f2 hh s hs (.inr hw))
            unfold Has at h
            rw [hno s hs] at h
            cases h
        · exact (hnc h).elim

end Verif.Odb
