import Verif.Odb.Lemmas3
/-! # Abbreviations as a whole; writing -/
namespace Verif.Odb
open Spec
open PackIdx.Spec (SamePrefix Padded)
open Oid.Spec (hex nibbles digit)

variable {σ α : Type} {ops : Ops σ} {Good : σ → Prop} {sees after : σ → Objs} {Valid : Bytes → Obj → Prop} {osz : Nat} {cfg : Cfg} {P : Obj → Prop}

theorem idOnly_notfound (r : Res (Bytes × α)) : idOnly r = .err (-3) ↔ r = .err (-3) := by
  cases r with
  | ok x => exact ⟨fun h => (by cases h), fun h => (by cases h)⟩
  | err e => exact ⟨fun h => (by injection h with h; rw [h]), fun h => (by injection h with h; rw [h]; rfl)⟩
  | ub => exact ⟨fun h => (by cases h), fun h => (by cases h)⟩

theorem readPrefix_spec (H : Honest ops cfg.osz Good sees after Valid) (W : World cfg P) {db : Db σ} (S : Sound cfg P Good after db) {short : Bytes} {len : Nat}
    (hl : short.length = cfg.osz) (hz : 2 ≤ cfg.osz) (h4 : 4 ≤ len) :
    List.Forall₂ (Later ops Good sees after) db.slots (readPrefix cfg ops db short len).1.slots ∧ Sound cfg P Good after (readPrefix cfg ops db short len).1 ∧
    (Among sees after db short (min len (2 * cfg.osz)) (idOnly (readPrefix cfg ops db short len).2) ∨
      (2 * cfg.osz ≤ len ∧ ∃ o, (short, o) ∈ db.cache ∧ (readPrefix cfg ops db short len).2 = .ok (short, o))) ∧
    (∀ i o, (readPrefix cfg ops db short len).2 = .ok (i, o) → Avail cfg after db i o) := by
  unfold readPrefix
  rw [if_neg (by unfold MINPREFIXLEN; omega)]
  dsimp only
  have hq0 := later_quiet (quiet_all (ops := ops) (sees := sees) (after := after) S.good)
  cases hc : (if min len (2 * cfg.osz) = 2 * cfg.osz then cacheGet db.cache short else none) with
  | some o =>
    split at hc
    · rename_i hm
      have hm := cacheGet_mem hc
      refine ⟨hq0, S, .inr ⟨by omega, o, hm, rfl⟩, fun i o' h => ?_⟩
      injection h with h
      injection h with h1 h2
      rw [← h1, ← h2]
      exact S.cache _ hm
    · cases hc
  | none =>
    dsimp only
    generalize hn : min len (2 * cfg.osz) = n
    obtain ⟨k1, k2, k3⟩ := cpyPrefix_spec (osz := cfg.osz) (n := n) hl (by omega)
    obtain ⟨a, b, c, d⟩ := again_prefix (α := Bytes × Obj) H S k3 (pr := idOnly) idOnly_notfound (g := fun only => readPrefix1 cfg ops (cpyPrefix cfg.osz short n) n only)
      (V := fun x => Avail cfg after db x.1 x.2)
      (fun only db' S' l => by
        obtain ⟨a, b, c, d⟩ := readPrefix1_spec H W S' k1 (by omega) (by omega) k2 only
        exact ⟨a, b, c, fun x hx => (avail_later l).mp (d x.1 x.2 hx)⟩)
    exact ⟨a, b, .inl c, fun i o h => d (i, o) h⟩

theorem again_cache {first : Db σ × Res α} {second : Db σ → Db σ × Res α} {c : List (Bytes × Obj)} (h1 : first.1.cache = c)
    (h2 : ∀ db, db = (refresh ops first.1).1 → (second db).1.cache = c) : (again ops first second).1.cache = c := by
  have h3 : (refresh ops first.1).1.cache = c := h1
  have h4 : (match refresh ops first.1 with
      | (db, .ok _) => second db
      | (db, _) => (db, .err ENOTFOUND)).1.cache = c := by
    generalize hr : refresh ops first.1 = r at h2 h3 ⊢
    obtain ⟨d, r⟩ := r
    cases r with
    | ok _ => exact h2 d rfl
    | err _ => exact h3
    | ub => exact h3
  unfold again
  have hi : ∀ (b : Bool) (x y : Db σ × Res α), x.1.cache = c → y.1.cache = c → (if b = true then x else y).1.cache = c := by
    intro b x y hx hy
    cases b
    · exact hy
    · exact hx
  exact hi _ _ _ h4 h1

theorem existsPrefix_spec (H : Honest ops cfg.osz Good sees after Valid) (W : World cfg P) {db : Db σ} (S : Sound cfg P Good after db) {short : Bytes} {len : Nat}
    (hl : short.length = cfg.osz) (h4 : 4 ≤ len) :
    List.Forall₂ (Later ops Good sees after) db.slots (existsPrefix cfg ops db short len).1.slots ∧ Sound cfg P Good after (existsPrefix cfg ops db short len).1 ∧
    (existsPrefix cfg ops db short len).1.cache = db.cache ∧
    ((len < 2 * cfg.osz ∧ Among sees after db short len (existsPrefix cfg ops db short len).2) ∨
      (2 * cfg.osz ≤ len ∧ (existsPrefix cfg ops db short len).2 = .ok short ∧ (Stored after db short ∨ ∃ o, (short, o) ∈ db.cache)) ∨
      (2 * cfg.osz ≤ len ∧ (existsPrefix cfg ops db short len).2 = .err (-3) ∧ ¬ Stored after db short ∧ ∀ o, (short, o) ∉ db.cache)) := by
  unfold existsPrefix
  rw [if_neg (by unfold MINPREFIXLEN; omega)]
  by_cases hn : len ≥ 2 * cfg.osz
  · rw [if_pos hn]
    obtain ⟨l, c, e⟩ := exists_spec H W S hl
    generalize exists' ops db short = r at l c e ⊢
    obtain ⟨db1, r⟩ := r
    dsimp only at l c e
    have S1 : Sound cfg P Good after db1 := sound_later S l (by rw [c]; exact S.cache)
    cases r with
    | true => exact ⟨l, S1, c, .inr (.inl ⟨hn, rfl, e.mp rfl⟩)⟩
    | false =>
      have : ¬ (Stored after db short ∨ ∃ o, (short, o) ∈ db.cache) := fun h => by have := e.mpr h; cases this
      exact ⟨l, S1, c, .inr (.inr ⟨hn, rfl, fun h => this (.inl h), fun o h => this (.inr ⟨o, h⟩)⟩)⟩
  · rw [if_neg hn]
    obtain ⟨k1, k2, k3⟩ := cpyPrefix_spec (osz := cfg.osz) (n := len) hl (by omega)
    have key : ∀ only db', Sound cfg P Good after db' → List.Forall₂ (Later ops Good sees after) db.slots db'.slots →
        List.Forall₂ (Quiet ops Good sees after) db'.slots (existsPrefix1 ops (cpyPrefix cfg.osz short len) len only db').1.slots ∧
        Sound cfg P Good after (existsPrefix1 ops (cpyPrefix cfg.osz short len) len only db').1 ∧
        Looked (fun i => ∃ s ∈ db'.slots, (only = false ∨ ops.canRefresh s.st = true) ∧ Has (sees s.st) i) (cpyPrefix cfg.osz short len) len
          (existsPrefix1 ops (cpyPrefix cfg.osz short len) len only db').2 ∧
        ∀ x, (existsPrefix1 ops (cpyPrefix cfg.osz short len) len only db').2 = .ok x → True := fun only db' S' l => by
      obtain ⟨a, b, c⟩ := existsPrefix1_spec H S' k1 (by omega) (by omega) k2 only
      exact ⟨a, sound_later S' (later_quiet a) (by rw [b]; exact S'.cache), c, fun _ _ => trivial⟩
    obtain ⟨a, b, c, _⟩ := again_prefix (α := Bytes) H S k3 (pr := fun r => r) (fun _ => Iff.rfl) (g := fun only => existsPrefix1 ops (cpyPrefix cfg.osz short len) len only)
      (V := fun _ => True) key
    refine ⟨a, b, ?_, .inl ⟨by omega, c⟩⟩
    obtain ⟨q1, c1, _⟩ := existsPrefix1_spec H S k1 (by omega) (by omega) k2 false
    refine again_cache c1 fun db2 hdb => ?_
    have hg1 : ∀ s ∈ (existsPrefix1 ops (cpyPrefix cfg.osz short len) len false db).1.slots, Good s.st := fun t ht => by
      obtain ⟨s, hs, l⟩ := forall₂_mem q1 t ht
      exact l.good
    have S1 := sound_later (db' := (existsPrefix1 ops (cpyPrefix cfg.osz short len) len false db).1) S (later_quiet q1) (by rw [c1]; exact S.cache)
    obtain ⟨f, g, k⟩ := refresh_spec H hg1
    rw [← hdb] at f k
    have S2 : Sound cfg P Good after db2 := sound_later S1 (later_fresh f) (by rw [k]; exact S1.cache)
    obtain ⟨_, c2, _⟩ := existsPrefix1_spec H S2 k1 (by omega) (by omega) k2 true
    rw [c2, k, c1]

/-! ## writing -/

/-- the answer to freshening -/
def SaysTouch (sees : σ → Objs) (id : Bytes) (s : σ) : Res Unit → Prop
  | .ok _ => Has (sees s) id
  | _ => True

theorem touch_asks (H : Honest ops osz Good sees after Valid) {id : Bytes} (hi : id.length = osz) (s : Slot σ) (hg : Good s.st) :
    Quiet ops Good sees after s ⟨(touch ops s.st id).1, s.alternate⟩ ∧ SaysTouch sees id s.st (touch ops s.st id).2 ∧
    ((∃ x, (touch ops s.st id).2 = .ok x) ∨ (touch ops s.st id).2 = .err (-3) ∨ (touch ops s.st id).2 = .err (-30)) := by
  unfold touch
  cases hf : ops.freshen s.st with
  | none =>
    obtain ⟨a, b, c, d, e⟩ := H.has _ hg id hi
    refine ⟨⟨a, b, c, d, rfl⟩, ?_⟩
    dsimp only
    cases hh : (ops.has s.st id).2
    · simp [ENOTFOUND, SaysTouch]
    · rw [hh] at e
      simp [SaysTouch, Has, ← e]
  | some f =>
    obtain ⟨a, b, c, d, e⟩ := H.freshen _ hg f hf id hi
    refine ⟨⟨a, b, c, d, rfl⟩, ?_⟩
    dsimp only
    cases hh : (f id).2 with
    | ok _ => exact ⟨e (by rw [hh]), .inl ⟨(), rfl⟩⟩
    | err _ => exact ⟨trivial, .inr (.inl rfl)⟩
    | ub => exact ⟨trivial, .inr (.inl rfl)⟩

theorem freshen1_spec (H : Honest ops osz Good sees after Valid) {db : Db σ} (hg : ∀ s ∈ db.slots, Good s.st) {id : Bytes} (hi : id.length = osz) (only : Bool) :
    List.Forall₂ (Quiet ops Good sees after) db.slots (freshen1 ops id only db).1.slots ∧ (freshen1 ops id only db).1.cache = db.cache ∧
    ((freshen1 ops id only db).2 = true → Stored sees db id) := by
  obtain ⟨a, b, c, d⟩ := twice_spec (R := SaysTouch sees id) H hg (fun s hg => touch_asks H hi s hg) only (freshen1 ops id only db) rfl
  exact ⟨a, b, c⟩

theorem freshen_spec (H : Honest ops osz Good sees after Valid) {db : Db σ} (hg : ∀ s ∈ db.slots, Good s.st) {id : Bytes} (hi : id.length = osz) :
    List.Forall₂ (Later ops Good sees after) db.slots (freshen ops db id).1.slots ∧ (freshen ops db id).1.cache = db.cache ∧
    ((freshen ops db id).2 = true → Stored after db id) := by
  unfold freshen
  obtain ⟨q, k1, t1⟩ := freshen1_spec H hg hi false
  generalize freshen1 ops id false db = r1 at q k1 t1 ⊢
  obtain ⟨db1, r1⟩ := r1
  dsimp only at q k1 t1
  cases r1 with
  | true => exact ⟨later_quiet q, k1, fun _ => stored_after H hg (t1 rfl)⟩
  | false =>
    dsimp only
    have hg1 : ∀ s ∈ db1.slots, Good s.st := fun t ht => by
      obtain ⟨s, hs, l⟩ := forall₂_mem q t ht
      exact l.good
    obtain ⟨f, g, k⟩ := refresh_spec H hg1
    generalize refresh ops db1 = r2 at f g k ⊢
    obtain ⟨db2, r2⟩ := r2
    dsimp only at f g k
    subst g
    dsimp only
    have hg2 : ∀ s ∈ db2.slots, Good s.st := fun t ht => by
      obtain ⟨s, hs, l⟩ := forall₂_mem f t ht
      exact l.good
    obtain ⟨q2, k2, t2⟩ := freshen1_spec H hg2 hi true
    have l12 := later_trans (later_quiet q) (later_fresh f)
    exact ⟨later_trans l12 (later_quiet q2), by rw [k2, k, k1], fun h => (stored_later l12).mp (stored_after H hg2 (t2 h))⟩

/-- what becomes of a backend when an object is written -/
structure Wrote (ops : Ops σ) (Good : σ → Prop) (sees after : σ → Objs) (id : Bytes) (o : Obj) (s t : Slot σ) : Prop where
  good : Good t.st
  can : ops.canRefresh t.st = ops.canRefresh s.st
  alt : t.alternate = s.alternate
  objs : (sees t.st = sees s.st ∧ after t.st = after s.st) ∨ (s.alternate = false ∧ sees t.st = With (sees s.st) id o ∧ after t.st = With (after s.st) id o)

theorem wrote_of_quiet {id : Bytes} {o : Obj} {s t : Slot σ} (h : Quiet ops Good sees after s t) : Wrote ops Good sees after id o s t := ⟨h.good, h.can, h.alt, .inl ⟨h.sees, h.after⟩⟩

theorem wrote_quiet {id : Bytes} {o : Obj} {x y : List (Slot σ)} (h : List.Forall₂ (Quiet ops Good sees after) x y) : List.Forall₂ (Wrote ops Good sees after id o) x y :=
  h.imp fun _ _ => wrote_of_quiet

theorem writeLoop_spec (H : Honest ops osz Good sees after Valid) {id : Bytes} {o : Obj} (hv : Valid id o) : ∀ (ss : List (Slot σ)) (e : Int), e < 0 → e ≠ -30 → (∀ s ∈ ss, Good s.st) →
    ((writeLoop ops id o ss e).2 = .ok () ∧ List.Forall₂ (Wrote ops Good sees after id o) ss (writeLoop ops id o ss e).1 ∧
      ∃ t ∈ (writeLoop ops id o ss e).1, after t.st id = some o) ∨
    (∃ e', e' < 0 ∧ e' ≠ -30 ∧ (writeLoop ops id o ss e).2 = .err e' ∧ List.Forall₂ (Quiet ops Good sees after) ss (writeLoop ops id o ss e).1 ∧
      ∀ s ∈ ss, s.alternate = false → ∀ f, ops.write s.st = some f → (f id o).2 ≠ .ok ()) := by
  intro ss
  induction ss with
  | nil => intro e he h30 _; exact .inr ⟨e, he, h30, rfl, .nil, fun s hs => (by cases hs)⟩
  | cons s ss ih =>
    intro e he h30 hg
    have hgs := hg s (by simp)
    have hgt : ∀ t ∈ ss, Good t.st := fun t ht => hg t (by simp [ht])
    unfold writeLoop
    cases hw : (if s.alternate = true then none else ops.write s.st) with
    | none =>
      dsimp only
      have hno : s.alternate = false → ∀ f, ops.write s.st = some f → (f id o).2 ≠ .ok () := fun ha f hf => by
        rw [ha] at hw
        simp only [Bool.false_eq_true, if_false] at hw
        rw [hw] at hf
        cases hf
      rcases ih e he h30 hgt with ⟨h1, h2, t, ht, h3⟩ | ⟨e', h1, h2, h3, h4, h5⟩
      · exact .inl ⟨h1, .cons (wrote_of_quiet (.refl hgs)) h2, t, by simp [ht], h3⟩
      · refine .inr ⟨e', h1, h2, h3, .cons (.refl hgs) h4, fun t ht => ?_⟩
        rcases List.mem_cons.mp ht with rfl | ht
        · exact hno
        · exact h5 t ht
    | some f =>
      dsimp only
      have ha : s.alternate = false := by
        cases h : s.alternate with
        | false => rfl
        | true => rw [h] at hw; cases hw
      have hwf : ops.write s.st = some f := by rw [ha] at hw; simpa using hw
      obtain ⟨g, c, h⟩ := H.write _ hgs f hwf id o hv
      generalize hfr : f id o = r at g c h ⊢
      obtain ⟨t, r⟩ := r
      dsimp only at g c h
      rcases h with ⟨rfl, h1, h2⟩ | ⟨e', rfl, h1, h2, h3, h4⟩
      · exact .inl ⟨rfl, .cons ⟨g, c, rfl, .inr ⟨ha, h1, h2⟩⟩ (wrote_quiet (quiet_all hgt)), ⟨t, s.alternate⟩, by simp, by rw [h2]; simp [With]⟩
      · dsimp only
        have q : Quiet ops Good sees after s ⟨t, s.alternate⟩ := ⟨g, h3, h4, c, rfl⟩
        rcases ih e' h1 h2 hgt with ⟨h1, h2, t, ht, h3⟩ | ⟨e'', h1, h2, h3, h4, h5⟩
        · exact .inl ⟨h1, .cons (wrote_of_quiet q) h2, t, by simp [ht], h3⟩
        · refine .inr ⟨e'', h1, h2, h3, .cons q h4, fun t ht => ?_⟩
          rcases List.mem_cons.mp ht with rfl | ht
          · intro _ f' hf'
            rw [hwf] at hf'
            injection hf' with hf'
            rw [← hf', hfr]
            intro h
            cases h
          · exact h5 t ht

theorem streamLoop_spec (H : Honest ops osz Good sees after Valid) {id : Bytes} {o : Obj} (hv : Valid id o) : ∀ (ss : List (Slot σ)) (e : Int), e < 0 → e ≠ -30 → (∀ s ∈ ss, Good s.st) →
    ((streamLoop ops id o ss e).2 = .ok () ∧ List.Forall₂ (Wrote ops Good sees after id o) ss (streamLoop ops id o ss e).1 ∧
      ∃ t ∈ (streamLoop ops id o ss e).1, after t.st id = some o) ∨
    (∃ e', e' < 0 ∧ (streamLoop ops id o ss e).2 = .err e' ∧ List.Forall₂ (Quiet ops Good sees after) ss (streamLoop ops id o ss e).1) := by
  intro ss
  induction ss with
  | nil =>
    intro e he h30 _
    refine .inr ⟨e, he, ?_, .nil⟩
    unfold streamLoop
    dsimp only
    rw [if_neg (by unfold PASSTHROUGH; exact h30)]
  | cons s ss ih =>
    intro e he h30 hg
    have hgs := hg s (by simp)
    have hgt : ∀ t ∈ ss, Good t.st := fun t ht => hg t (by simp [ht])
    have hskip : ∀ e', e' < 0 → e' ≠ -30 → ((streamLoop ops id o ss e').2 = .ok () ∧
        List.Forall₂ (Wrote ops Good sees after id o) (s :: ss) (s :: (streamLoop ops id o ss e').1) ∧ ∃ t ∈ s :: (streamLoop ops id o ss e').1, after t.st id = some o) ∨
        (∃ e'', e'' < 0 ∧ (streamLoop ops id o ss e').2 = .err e'' ∧ List.Forall₂ (Quiet ops Good sees after) (s :: ss) (s :: (streamLoop ops id o ss e').1)) := by
      intro e' he' h30'
      rcases ih e' he' h30' hgt with ⟨h1, h2, t, ht, h3⟩ | ⟨e'', h1, h2, h3⟩
      · exact .inl ⟨h1, .cons (wrote_of_quiet (.refl hgs)) h2, t, by simp [ht], h3⟩
      · exact .inr ⟨e'', h1, h2, .cons (.refl hgs) h3⟩
    unfold streamLoop
    cases hw : (if s.alternate = true then none else openStream ops s.st) with
    | none => exact hskip e he h30
    | some r =>
      have ha : s.alternate = false := by
        cases h : s.alternate with
        | false => rfl
        | true => rw [h] at hw; cases hw
      have hof : openStream ops s.st = some r := by rw [ha] at hw; simpa using hw
      have hfin : r = .ok () → Good (finishStream ops s.st id o).1 ∧ ops.canRefresh (finishStream ops s.st id o).1 = ops.canRefresh s.st ∧
          (((finishStream ops s.st id o).2 = .ok () ∧ sees (finishStream ops s.st id o).1 = With (sees s.st) id o ∧ after (finishStream ops s.st id o).1 = With (after s.st) id o) ∨
            (∃ e, (finishStream ops s.st id o).2 = .err e ∧ e < 0 ∧ sees (finishStream ops s.st id o).1 = sees s.st ∧ after (finishStream ops s.st id o).1 = after s.st)) := by
        intro hr
        subst hr
        unfold openStream at hof
        unfold finishStream
        cases hs : ops.stream s.st with
        | some r' => exact H.finish _ hgs (by rw [hs]; simp) id o hv
        | none =>
          rw [hs] at hof
          dsimp only at hof
          cases hwr : ops.write s.st with
          | none => rw [hwr] at hof; simp at hof
          | some f =>
            obtain ⟨g, c, h⟩ := H.write _ hgs f hwr id o hv
            refine ⟨g, c, h.imp (fun h => h) fun ⟨e, h1, h2, _, h3⟩ => ⟨e, h1, h2, h3⟩⟩
      have hres : r = .ok () ∨ ∃ e, r = .err e ∧ e < 0 ∧ e ≠ -30 := by
        unfold openStream at hof
        cases hs : ops.stream s.st with
        | some r' =>
          rw [hs] at hof
          injection hof with hof
          subst hof
          exact H.stream _ hgs _ hs
        | none =>
          rw [hs] at hof
          dsimp only at hof
          split at hof
          · injection hof with hof; exact .inl hof.symm
          · cases hof
      rcases hres with rfl | ⟨e', rfl, h1, h2⟩
      · dsimp only
        obtain ⟨g, c, h⟩ := hfin rfl
        rcases h with ⟨h1, h2, h3⟩ | ⟨e', h1, h2, h3, h4⟩
        · refine .inl ⟨h1, .cons ⟨g, c, rfl, .inr ⟨ha, h2, h3⟩⟩ (wrote_quiet (quiet_all hgt)), ⟨(finishStream ops s.st id o).1, s.alternate⟩, by simp, ?_⟩
          rw [show (⟨(finishStream ops s.st id o).1, s.alternate⟩ : Slot σ).st = (finishStream ops s.st id o).1 from rfl, h3]
          simp [With]
        · exact .inr ⟨e', h2, h1, .cons ⟨g, h3, h4, c, rfl⟩ (quiet_all hgt)⟩
      · exact hskip e' h1 h2

end Verif.Odb
