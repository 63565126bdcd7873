import Verif.Odb.Lemmas2
/-! # Headers, abbreviations -/
namespace Verif.Odb
open Spec
open PackIdx.Spec (SamePrefix Padded)
open Oid.Spec (hex nibbles digit)

theorem andF0 : ∀ c : UInt8, (c &&& 0xF0) / 16 = c / 16 ∧ (c &&& 0xF0) % 16 = 0 := by decide +kernel

/-- the bytes of the abbreviation, without what fills it up -/
def cpyCore (id : Bytes) (len : Nat) : Bytes :=
  if len % 2 = 1 then (id.take ((len + 1) / 2)).take (len / 2) ++ ((id.take ((len + 1) / 2)).drop (len / 2)).map (fun c => c &&& 0xF0) else id.take ((len + 1) / 2)

theorem cpyCore_step (c : UInt8) (id : Bytes) (n : Nat) : cpyCore (c :: id) (n + 2) = c :: cpyCore id n := by
  unfold cpyCore
  have h1 : (n + 2) % 2 = n % 2 := by omega
  have h2 : (n + 2 + 1) / 2 = (n + 1) / 2 + 1 := by omega
  have h3 : (n + 2) / 2 = n / 2 + 1 := by omega
  rw [h1, h2, h3]
  split <;> simp

theorem cpyCore_nibbles : ∀ (n : Nat) (id : Bytes), n ≤ 2 * id.length →
    nibbles (cpyCore id n) = (nibbles id).take n ++ List.replicate (n % 2) 0 ∧ (cpyCore id n).length = (n + 1) / 2
  | 0, id, _ => by simp [cpyCore, nibbles]
  | 1, [], h => by simp at h
  | 1, c :: id, _ => by
    simp [cpyCore, nibbles, andF0 c]
  | n + 2, [], h => by simp at h
  | n + 2, c :: id, h => by
    rw [cpyCore_step]
    obtain ⟨i1, i2⟩ := cpyCore_nibbles n id (by simp at h; omega)
    have h1 : (n + 2) % 2 = n % 2 := by omega
    have e1 : nibbles (c :: cpyCore id n) = c / 16 :: c % 16 :: nibbles (cpyCore id n) := by simp [nibbles]
    have e2 : nibbles (c :: id) = c / 16 :: c % 16 :: nibbles id := by simp [nibbles]
    rw [e1, e2, i1, h1]
    refine ⟨by simp, by simp [i2]; omega⟩

theorem cpyPrefix_eq (osz : Nat) (id : Bytes) (len : Nat) : cpyPrefix osz id len = cpyCore id len ++ List.replicate (osz - (cpyCore id len).length) 0 := rfl

theorem nibbles_append (a b : Bytes) : nibbles (a ++ b) = nibbles a ++ nibbles b := by
  induction a with
  | nil => rfl
  | cons x a ih => simp [nibbles, ih]

theorem cpyPrefix_spec {osz : Nat} {short : Bytes} {n : Nat} (hs : short.length = osz) (hn : n ≤ 2 * osz) :
    (cpyPrefix osz short n).length = osz ∧ Padded n (cpyPrefix osz short n) ∧ SamePrefix n short (cpyPrefix osz short n) := by
  obtain ⟨h1, h2⟩ := cpyCore_nibbles n short (by omega)
  have hk : nibbles (cpyPrefix osz short n) = (nibbles short).take n ++ List.replicate (2 * osz - n) 0 := by
    have : nibbles (cpyPrefix osz short n) = nibbles (cpyCore short n) ++ nibbles (List.replicate (osz - (cpyCore short n).length) 0) := by
      rw [cpyPrefix_eq, nibbles_append]
    rw [this, h1, h2, Oid.nibbles_replicate, List.append_assoc, List.replicate_append_replicate]
    congr 2
    omega
  have hl : ((nibbles short).take n).length = n := by simp; omega
  refine ⟨?_, ?_, ?_⟩
  · rw [cpyPrefix_eq]; simp [h2]; omega
  · unfold Padded hex
    rw [hk, ← List.map_drop, List.drop_append, hl]
    intro c hc
    have : (List.drop n (List.take n (nibbles short))) = [] := by simp
    rw [this] at hc
    simp at hc
    rw [hc.2]; decide
  · unfold SamePrefix hex
    rw [hk, ← List.map_take, ← List.map_take, List.take_append, hl, List.take_take]
    simp

theorem samePrefix_symm {n : Nat} {a b : Bytes} (h : SamePrefix n a b) : SamePrefix n b a := Eq.symm h
theorem samePrefix_trans {n : Nat} {a b c : Bytes} (h : SamePrefix n a b) (k : SamePrefix n b c) : SamePrefix n a c := Eq.trans h k

theorem looked_congr {A B : Bytes → Prop} {key short : Bytes} {n : Nat} {r : Res Bytes} (hk : SamePrefix n short key) (h : ∀ i, SamePrefix n short i → (A i ↔ B i))
    (hl : Looked A key n r) : Looked B short n r := by
  have too : ∀ {i}, SamePrefix n key i → SamePrefix n short i := fun h => samePrefix_trans hk h
  have fro : ∀ {i}, SamePrefix n short i → SamePrefix n key i := fun h => samePrefix_trans (samePrefix_symm hk) h
  cases hl with
  | one h1 h2 h3 => exact .one ((h _ (too h2)).mp h1) (too h2) fun j hj hs => h3 j ((h _ hs).mpr hj) (fro hs)
  | none h1 => exact .none fun j hj hs => h1 j ((h _ hs).mpr hj) (fro hs)
  | more h1 h2 h3 h4 h5 => exact .more ((h _ (too h4)).mp h1) ((h _ (too h5)).mp h2) h3 (too h4) (too h5)

variable {σ α : Type} {ops : Ops σ} {Good : σ → Prop} {sees after : σ → Objs} {Valid : Bytes → Obj → Prop} {osz : Nat} {cfg : Cfg} {P : Obj → Prop}

/-! ## headers -/

/-- the answer to a question for the header -/
def SaysHeader (sees : σ → Objs) (id : Bytes) (s : σ) : Res (Nat × Nat) → Prop
  | .ok x => ∃ o, sees s id = some o ∧ x = (o.data.length, o.type)
  | .err e => e = -30 ∨ sees s id = none
  | .ub => False

theorem header_asks (H : Honest ops osz Good sees after Valid) {id : Bytes} (hi : id.length = osz) (s : Slot σ) (hg : Good s.st) :
    Quiet ops Good sees after s ⟨(ops.readHeader s.st id).1, s.alternate⟩ ∧ SaysHeader sees id s.st (ops.readHeader s.st id).2 ∧
    ((∃ x, (ops.readHeader s.st id).2 = .ok x) ∨ (ops.readHeader s.st id).2 = .err (-3) ∨ (ops.readHeader s.st id).2 = .err (-30)) := by
  obtain ⟨a, b, c, d, e⟩ := H.header _ hg id hi
  refine ⟨⟨a, b, c, d, rfl⟩, ?_⟩
  rcases e with e | ⟨e, f⟩
  · rw [e]; exact ⟨.inl rfl, .inr (.inr rfl)⟩
  · cases hs : sees s.st id with
    | none => rw [f hs]; exact ⟨.inr hs, .inr (.inl rfl)⟩
    | some o => rw [e o hs]; exact ⟨⟨o, hs, rfl⟩, .inl ⟨_, rfl⟩⟩

theorem readHeader1_spec (H : Honest ops osz Good sees after Valid) {db : Db σ} (S : Sound cfg P Good after db) {id : Bytes} (hi : id.length = osz) (only : Bool) :
    List.Forall₂ (Quiet ops Good sees after) db.slots (readHeader1 cfg ops id only db).1.slots ∧ (readHeader1 cfg ops id only db).1.cache = db.cache ∧
    ((∃ o, (readHeader1 cfg ops id only db).2 = .ok (o.data.length, o.type) ∧ Avail cfg after db id o) ∨ (readHeader1 cfg ops id only db).2 = .err (-30) ∨
      ((readHeader1 cfg ops id only db).2 = .err (-3) ∧ (only = false → id ≠ cfg.emptyTree) ∧
        ∀ s ∈ db.slots, (only = false ∨ ops.canRefresh s.st = true) → sees s.st id = none)) := by
  unfold readHeader1
  by_cases he : only = false ∧ id = cfg.emptyTree
  · rw [if_pos (by simp [he])]
    exact ⟨quiet_all S.good, rfl, .inl ⟨⟨2, []⟩, rfl, .inr ⟨he.2, rfl⟩⟩⟩
  · rw [if_neg (by intro h; apply he; simpa using h)]
    have hl := firstLoop_spec (ops := ops) (only := only) (f := fun s => ops.readHeader s id) (R := SaysHeader sees id) (fun s hg => header_asks H hi s hg) db.slots S.good
    generalize firstLoop ops only (fun s => ops.readHeader s id) db.slots = r at hl ⊢
    obtain ⟨slots, r, p⟩ := r
    obtain ⟨q, hl⟩ := hl
    rcases hl with ⟨s, hs, x, hr, o, ho, hx⟩ | ⟨hr, hn⟩
    · dsimp only at hr
      subst hr hx
      exact ⟨q, rfl, .inl ⟨o, rfl, avail_seen H S.good hs ho⟩⟩
    · dsimp only at hr hn
      subst hr
      cases p with
      | true => exact ⟨q, rfl, .inr (.inl (by simp [ENOTFOUND, PASSTHROUGH]))⟩
      | false =>
        refine ⟨q, rfl, .inr (.inr ⟨by simp, fun ho h => he ⟨ho, h⟩, fun s hs hw => ?_⟩)⟩
        rcases hn s hs hw with h | ⟨h, _⟩
        · rcases h with h | h
          · cases h
          · exact h
        · cases h

theorem readHeader_spec (H : Honest ops osz Good sees after Valid) (W : World cfg P) {db : Db σ} (S : Sound cfg P Good after db) {id : Bytes} (hi : id.length = osz) :
    List.Forall₂ (Later ops Good sees after) db.slots (readHeader cfg ops db id).1.slots ∧ Sound cfg P Good after (readHeader cfg ops db id).1 ∧
    (∀ x ∈ db.cache, x ∈ (readHeader cfg ops db id).1.cache) ∧
    ((∃ o, (readHeader cfg ops db id).2 = .ok (o.data.length, o.type) ∧ Avail cfg after db id o) ∨
      ((readHeader cfg ops db id).2 = .err (-3) ∧ ∀ o, ¬ Avail cfg after db id o)) := by
  have hq0 := later_quiet (quiet_all (ops := ops) (sees := sees) (after := after) S.good)
  unfold readHeader
  cases hz : isZero id with
  | true =>
    rw [if_pos rfl]
    refine ⟨hq0, S, fun x hx => hx, .inr ⟨rfl, fun o h => ?_⟩⟩
    rw [avail_nonzero W S h] at hz
    cases hz
  | false =>
    rw [if_neg (by simp)]
    cases hc : cacheGet db.cache id with
    | some o => exact ⟨hq0, S, fun x hx => hx, .inl ⟨o, rfl, S.cache _ (cacheGet_mem hc)⟩⟩
    | none =>
      dsimp only
      have hag : let r := again ops (readHeader1 cfg ops id false db) (readHeader1 cfg ops id true)
          List.Forall₂ (Later ops Good sees after) db.slots r.1.slots ∧ r.1.cache = db.cache ∧
          ((∃ o, r.2 = .ok (o.data.length, o.type) ∧ Avail cfg after db id o) ∨ r.2 = .err (-30) ∨ (r.2 = .err (-3) ∧ ∀ o, ¬ Avail cfg after db id o)) := by
        obtain ⟨q, c1, h⟩ := readHeader1_spec H S hi false
        generalize readHeader1 cfg ops id false db = r1 at q c1 h ⊢
        obtain ⟨db1, r1⟩ := r1
        dsimp only at q c1 h
        unfold again
        rcases h with ⟨o, rfl, ha⟩ | rfl | ⟨rfl, he, hn⟩
        · exact ⟨later_quiet q, c1, .inl ⟨o, rfl, ha⟩⟩
        · exact ⟨later_quiet q, c1, .inr (.inl rfl)⟩
        · have S1 : Sound cfg P Good after db1 := sound_later S (later_quiet q) (by rw [c1]; exact S.cache)
          rw [if_pos (by simp [ENOTFOUND])]
          obtain ⟨f, g, k⟩ := refresh_spec H S1.good
          generalize refresh ops db1 = r2 at f g k ⊢
          obtain ⟨db2, r2⟩ := r2
          dsimp only at f g k
          subst g
          have S2 : Sound cfg P Good after db2 := sound_later S1 (later_fresh f) (by rw [k]; exact S1.cache)
          obtain ⟨q2, c3, h⟩ := readHeader1_spec H S2 hi true
          have l12 := later_trans (later_quiet q) (later_fresh f)
          refine ⟨later_trans l12 (later_quiet q2), by rw [c3, k, c1], ?_⟩
          rcases h with ⟨o, ho, ha⟩ | ho | ⟨ho, _, hn2⟩
          · exact .inl ⟨o, ho, (avail_later l12).mp ha⟩
          · exact .inr (.inl ho)
          · refine .inr (.inr ⟨ho, fun o ha => ?_⟩)
            have hno := not_avail H S.good q f (fun s hs => hn s hs (.inl rfl)) (fun s hs hw => hn2 s hs (.inr hw))
            rcases ha with ⟨s, hs, ha⟩ | ⟨ha, _⟩
            · rw [hno s hs] at ha; cases ha
            · exact he rfl ha
      dsimp only at hag
      generalize again ops (readHeader1 cfg ops id false db) (readHeader1 cfg ops id true) = r at hag ⊢
      obtain ⟨db1, r⟩ := r
      dsimp only at hag
      obtain ⟨l, c, h⟩ := hag
      have S1 : Sound cfg P Good after db1 := sound_later S l (by rw [c]; exact S.cache)
      rcases h with ⟨o, rfl, ha⟩ | rfl | ⟨rfl, ha⟩
      · exact ⟨l, S1, fun x hx => c ▸ hx, .inl ⟨o, rfl, ha⟩⟩
      · simp only [PASSTHROUGH, decide_true, if_true]
        obtain ⟨l2, S2, c2, h⟩ := read_spec H W S1 hi
        generalize read cfg ops db1 id = r2 at l2 S2 c2 h ⊢
        obtain ⟨db2, r2⟩ := r2
        dsimp only at l2 S2 c2 h
        rw [c] at c2
        rcases h with ⟨o, rfl, ha⟩ | ⟨rfl, ha⟩
        · exact ⟨later_trans l l2, S2, c2, .inl ⟨o, rfl, (avail_later l).mp ha⟩⟩
        · exact ⟨later_trans l l2, S2, c2, .inr ⟨rfl, fun o h => ha o ((avail_later l).mpr h)⟩⟩
      · exact ⟨l, S1, fun x hx => c ▸ hx, .inr ⟨rfl, ha⟩⟩

/-! ## abbreviations -/

theorem again_prefix (H : Honest ops osz Good sees after Valid) {db : Db σ} (S : Sound cfg P Good after db) {key short : Bytes} {n : Nat} (hk : SamePrefix n short key)
    {pr : Res α → Res Bytes} (hpr : ∀ r, pr r = .err (-3) ↔ r = .err (-3)) {g : Bool → Db σ → Db σ × Res α} {V : α → Prop}
    (hg : ∀ only db', Sound cfg P Good after db' → List.Forall₂ (Later ops Good sees after) db.slots db'.slots →
      List.Forall₂ (Quiet ops Good sees after) db'.slots (g only db').1.slots ∧ Sound cfg P Good after (g only db').1 ∧
      Looked (fun i => ∃ s ∈ db'.slots, (only = false ∨ ops.canRefresh s.st = true) ∧ Has (sees s.st) i) key n (pr (g only db').2) ∧
      (∀ x, (g only db').2 = .ok x → V x)) :
    List.Forall₂ (Later ops Good sees after) db.slots (again ops (g false db) (g true)).1.slots ∧ Sound cfg P Good after (again ops (g false db) (g true)).1 ∧
    Among sees after db short n (pr (again ops (g false db) (g true)).2) ∧
    (∀ x, (again ops (g false db) (g true)).2 = .ok x → V x) := by
  have hq0 := later_quiet (quiet_all (ops := ops) (sees := sees) (after := after) S.good)
  obtain ⟨q, S1, L1, v1⟩ := hg false db S hq0
  have L1' : Looked (Stored sees db) short n (pr (g false db).2) := looked_congr hk (fun i _ => by simp [Stored]) L1
  generalize g false db = r1 at q S1 L1 L1' v1 ⊢
  obtain ⟨db1, r1⟩ := r1
  dsimp only at q S1 L1 L1' v1
  unfold again
  by_cases h3 : r1 = .err (-3)
  · subst h3
    rw [if_pos (by simp [ENOTFOUND])]
    rw [(hpr _).mpr rfl] at L1'
    have hno : ∀ j, Stored sees db j → ¬ SamePrefix n short j := by
      cases L1' with
      | none h => exact h
    obtain ⟨f, gg, k⟩ := refresh_spec H S1.good
    generalize refresh ops db1 = r2 at f gg k ⊢
    obtain ⟨db2, r2⟩ := r2
    dsimp only at f gg k
    subst gg
    have S2 : Sound cfg P Good after db2 := sound_later S1 (later_fresh f) (by rw [k]; exact S1.cache)
    have l12 := later_trans (later_quiet q) (later_fresh f)
    obtain ⟨q2, S3, L3, v3⟩ := hg true db2 S2 l12
    refine ⟨later_trans l12 (later_quiet q2), S3, ⟨fun ⟨i, h1, h2⟩ => (hno i h1 h2).elim, fun _ => looked_congr hk (fun i hi => ?_) L3⟩, v3⟩
    constructor
    · rintro ⟨s, hs, _, h⟩
      exact (stored_later l12).mp (stored_after H S2.good ⟨s, hs, h⟩)
    · rintro ⟨s, hs, h⟩
      obtain ⟨t, ht, a⟩ := forall₂_mem' q s hs
      obtain ⟨u, hu, b⟩ := forall₂_mem' f t ht
      refine ⟨u, hu, ?_, ?_⟩
      · cases hc : ops.canRefresh s.st with
        | true => exact .inr (by rw [b.can, a.can, hc])
        | false =>
          rw [H.fixed _ (S.good s hs) hc] at h
          exact (hno i ⟨s, hs, h⟩ hi).elim
      · rw [b.sees, a.after]; exact h
  · rw [if_neg (by
      intro h
      apply h3
      cases r1 with
      | err e => have := of_decide_eq_true h; rw [this]; rfl
      | ok _ => cases h
      | ub => cases h)]
    refine ⟨later_quiet q, S1, ?_, v1⟩
    have hyes : ∃ i, Stored sees db i ∧ SamePrefix n short i := by
      have hne : pr r1 ≠ .err (-3) := fun h => h3 ((hpr _).mp h)
      generalize hd : pr r1 = d at L1' hne
      cases L1' with
      | one h1 h2 _ => exact ⟨_, h1, h2⟩
      | none => exact (hne rfl).elim
      | more h1 _ _ h4 _ => exact ⟨_, h1, h4⟩
    exact ⟨fun _ => L1', fun hn => by obtain ⟨i, h1, h2⟩ := hyes; exact (hn i h1 h2).elim⟩

theorem readPrefix1_spec (H : Honest ops osz Good sees after Valid) (W : World cfg P) {db : Db σ} (S : Sound cfg P Good after db) {key : Bytes} {n : Nat}
    (hl : key.length = osz) (h4 : 4 ≤ n) (hn : n ≤ 2 * osz) (hp : Padded n key) (only : Bool) :
    List.Forall₂ (Quiet ops Good sees after) db.slots (readPrefix1 cfg ops key n only db).1.slots ∧ Sound cfg P Good after (readPrefix1 cfg ops key n only db).1 ∧
    Looked (fun i => ∃ s ∈ db.slots, (only = false ∨ ops.canRefresh s.st = true) ∧ Has (sees s.st) i) key n (idOnly (readPrefix1 cfg ops key n only db).2) ∧
    (∀ i o, (readPrefix1 cfg ops key n only db).2 = .ok (i, o) → Avail cfg after db i o) := by
  have hs := prefixLoop_spec (ops := ops) (Good := Good) (sees := sees) (after := after) (only := only) (f := fun s => ops.readPrefix s key n) (key := key) (len := n)
    (fun s hg => by
      obtain ⟨a, b, c, d, e, _⟩ := H.readPrefix _ hg key n hl h4 hn hp
      exact ⟨⟨a, b, c, d, rfl⟩, e⟩) db.slots none (fun _ => False) S.good (.none fun _ h => h.elim)
  have hv : ∀ i o, (prefixLoop ops only (fun s => ops.readPrefix s key n) none db.slots).2 = .ok (i, o) → Avail cfg after db i o := by
    intro i o h
    rcases hs.2.2 _ h with h | ⟨s, hs, h⟩
    · cases h
    · obtain ⟨_, _, _, _, _, f⟩ := H.readPrefix _ (S.good s hs) key n hl h4 hn hp
      exact avail_seen H S.good hs (f i o h)
  unfold readPrefix1
  generalize prefixLoop ops only (fun s => ops.readPrefix s key n) none db.slots = r at hs hv ⊢
  obtain ⟨slots, r⟩ := r
  obtain ⟨q, L, _⟩ := hs
  dsimp only at q L hv
  simp only [false_or] at L
  have S1 : Sound cfg P Good after (⟨slots, db.cache⟩ : Db σ) := sound_later S (later_quiet q) S.cache
  cases r with
  | ub => exact ⟨q, S1, L, fun i o h => by cases h⟩
  | err e => exact ⟨q, S1, L, fun i o h => by cases h⟩
  | ok x =>
    obtain ⟨i, o⟩ := x
    dsimp only
    have ha := hv i o rfl
    obtain ⟨a, b, c, _⟩ := finishRead_spec W S (later_quiet q) ha
    generalize finishRead cfg db.cache slots i o = r at a b c ⊢
    obtain ⟨db1, r⟩ := r
    dsimp only at a b c
    subst a
    exact ⟨by rw [b]; exact q, c, L, fun i' o' h => by injection h with h; injection h with h1 h2; rw [← h1, ← h2]; exact ha⟩

/-- the result of `odb_exists_prefix_1` with the id twice -/
theorem existsPrefix1_spec (H : Honest ops osz Good sees after Valid) {db : Db σ} (S : Sound cfg P Good after db) {key : Bytes} {n : Nat}
    (hl : key.length = osz) (h4 : 4 ≤ n) (hn : n < 2 * osz) (hp : Padded n key) (only : Bool) :
    List.Forall₂ (Quiet ops Good sees after) db.slots (existsPrefix1 ops key n only db).1.slots ∧ (existsPrefix1 ops key n only db).1.cache = db.cache ∧
    Looked (fun i => ∃ s ∈ db.slots, (only = false ∨ ops.canRefresh s.st = true) ∧ Has (sees s.st) i) key n (existsPrefix1 ops key n only db).2 := by
  unfold existsPrefix1
  generalize hf : (fun s => match ops.hasPrefix s key n with
      | (t, .ok i) => (t, (.ok (i, ()) : Res (Bytes × Unit)))
      | (t, .err e) => (t, .err e)
      | (t, .ub) => (t, .ub)) = f
  have hs := prefixLoop_spec (ops := ops) (Good := Good) (sees := sees) (after := after) (only := only) (f := f) (key := key) (len := n)
    (fun s hg => by
      obtain ⟨a, b, c, d, e⟩ := H.hasPrefix _ hg key n hl h4 hn hp
      subst hf
      dsimp only
      generalize ops.hasPrefix s.st key n = r at a b c d e ⊢
      obtain ⟨t, r⟩ := r
      cases r with
      | ok i => exact ⟨⟨a, b, c, d, rfl⟩, e⟩
      | err i => exact ⟨⟨a, b, c, d, rfl⟩, e⟩
      | ub => exact ⟨⟨a, b, c, d, rfl⟩, e⟩) db.slots none (fun _ => False) S.good (.none fun _ h => h.elim)
  generalize prefixLoop ops only f none db.slots = r at hs ⊢
  obtain ⟨slots, r⟩ := r
  obtain ⟨q, L, _⟩ := hs
  dsimp only at q L
  simp only [false_or] at L
  cases r with
  | ub => exact ⟨q, rfl, L⟩
  | err e => exact ⟨q, rfl, L⟩
  | ok x => exact ⟨q, rfl, L⟩

end Verif.Odb
