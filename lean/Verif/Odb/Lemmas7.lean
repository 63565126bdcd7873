import Verif.Odb.Lemmas6
/-! # The directory of packs: looking things up -/
namespace Verif.Odb
open Spec
open PackIdx.Spec (SamePrefix Padded)
open Oid.Spec (hex nibbles digit)

variable {osz : Nat} {U : Bytes → Pk} {b : PackB}

theorem padded_full {id : Bytes} (h : id.length = osz) : Padded (2 * osz) id := by
  unfold Padded
  intro c hc
  rw [List.drop_eq_nil_of_le (by rw [PackIdx.hex_length]; omega)] at hc
  cases hc

theorem pkObj_len {p : Pk} {id : Bytes} {o : Obj} (h : pkObj osz p id = some o) : id.length = osz := by
  unfold pkObj at h
  split at h
  · assumption
  · cases h

/-- the search in one pack -/
theorem findIn_full {p : Pk} (R : PackRight osz p) {id : Bytes} (hi : id.length = osz) :
    (∃ e o, findIn p id (2 * osz) = .ok e ∧ e.pk = p ∧ e.id = id ∧ p.get e.off = .ok o ∧ pkObj osz p id = some o) ∨
    (findIn p id (2 * osz) = .err (-3) ∧ pkObj osz p id = none) := by
  obtain ⟨ents, h1, h2⟩ := R
  have hL := h1 id (2 * osz) hi (padded_full hi)
  have full : ∀ e ∈ ents, SamePrefix (2 * osz) id e.1 → e.1 = id := fun e he hs =>
    ((PackIdx.samePrefix_full (by rw [hi, (h2 e he).1]) (by rw [(h2 e he).1]; exact Nat.le_refl _)).mp hs).symm
  unfold findIn pkObj
  rw [if_pos hi]
  generalize p.find id (2 * osz) = r at hL ⊢
  cases hL with
  | one i x hm hs _ =>
    have hii := full _ hm hs
    obtain ⟨o, ho⟩ := (h2 _ hm).2
    dsimp only at hii ho
    subst hii
    exact .inl ⟨⟨p, x, i⟩, o, rfl, rfl, rfl, ho, by simp only [ho]⟩
  | none => exact .inr ⟨rfl, rfl⟩
  | more d e hd he hne h3 h4 => exact (hne ((full d hd h3).trans (full e he h4).symm)).elim

/-- the id of an entry that was found -/
def entId : Res Ent → Res Bytes
  | .ok e => .ok e.id
  | .err e => .err e
  | .ub => .ub

theorem ents_obj {p : Pk} {ents : List (Bytes × Nat)} (h1 : ∀ key len, key.length = osz → Padded len key → PackIdx.Spec.Looked ents key len (p.find key len))
    (h2 : ∀ e ∈ ents, e.1.length = osz ∧ ∃ o, p.get e.2 = .ok o) (id : Bytes) : Has (pkObj osz p) id ↔ ∃ off, (id, off) ∈ ents := by
  constructor
  · intro h
    obtain ⟨o, ho⟩ := Option.isSome_iff_exists.mp h
    have hi := pkObj_len ho
    have hL := h1 id (2 * osz) hi (padded_full hi)
    unfold pkObj at ho
    rw [if_pos hi] at ho
    generalize p.find id (2 * osz) = r at hL ho
    cases hL with
    | one i x hm hs _ =>
      have := (PackIdx.samePrefix_full (by rw [hi, (h2 _ hm).1]) (by rw [(h2 _ hm).1]; exact Nat.le_refl _)).mp hs
      subst this
      exact ⟨x, hm⟩
    | none => cases ho
    | more => cases ho
  · rintro ⟨off, hm⟩
    have hi := (h2 _ hm).1
    rcases findIn_full ⟨ents, h1, h2⟩ hi with ⟨_, o, _, _, _, _, h⟩ | ⟨h, _⟩
    · unfold Has; rw [h]; rfl
    · have hL := h1 id (2 * osz) hi (padded_full hi)
      unfold findIn at h
      generalize p.find id (2 * osz) = r at hL h
      cases hL with
      | one => cases h
      | none hn => exact (hn _ hm rfl).elim
      | more => cases h

theorem findIn_prefix {p : Pk} (R : PackRight osz p) {key : Bytes} {len : Nat} (hk : key.length = osz) (hp : Padded len key) :
    Looked (Has (pkObj osz p)) key len (entId (findIn p key len)) ∧
    ∀ e, findIn p key len = .ok e → e.pk = p ∧ ∃ o, p.get e.off = .ok o ∧ pkObj osz p e.id = some o := by
  obtain ⟨ents, h1, h2⟩ := R
  have hL := h1 key len hk hp
  have hE := ents_obj h1 h2
  unfold findIn
  generalize p.find key len = r at hL ⊢
  cases hL with
  | one i x hm hs hu =>
    refine ⟨.one ((hE i).mpr ⟨x, hm⟩) hs fun j hj hjs => ?_, fun e he => ?_⟩
    · obtain ⟨off, ho⟩ := (hE j).mp hj
      have := hu _ ho hjs
      injection this with a c
    · injection he with he
      subst he
      obtain ⟨o, ho⟩ := (h2 _ hm).2
      have hi := (h2 _ hm).1
      refine ⟨rfl, o, ho, ?_⟩
      have hL := h1 i (2 * osz) hi (padded_full hi)
      unfold pkObj
      rw [if_pos hi]
      generalize p.find i (2 * osz) = r at hL
      cases hL with
      | one j y hj hjs hju =>
        have := (hju _ hm rfl)
        injection this with a c
        subst a c
        dsimp only at ho ⊢
        rw [ho]
      | none hn => exact (hn _ hm rfl).elim
      | more d e hd he hne h3 h4 =>
        have f1 := (PackIdx.samePrefix_full (by rw [hi, (h2 d hd).1]) (by rw [(h2 d hd).1]; exact Nat.le_refl _)).mp h3
        have f2 := (PackIdx.samePrefix_full (by rw [hi, (h2 e he).1]) (by rw [(h2 e he).1]; exact Nat.le_refl _)).mp h4
        exact (hne (f1.symm.trans f2)).elim
  | none hn =>
    refine ⟨.none fun j hj hs => ?_, fun e he => (by cases he)⟩
    obtain ⟨off, ho⟩ := (hE j).mp hj
    exact hn _ ho hs
  | more d e hd he hne h3 h4 => exact ⟨.more ((hE _).mpr ⟨_, hd⟩) ((hE _).mpr ⟨_, he⟩) hne h3 h4, fun e he => (by cases he)⟩

/-! ## the first object that one of the packs has -/

theorem firstObj_iff {ps : List Pk} (ha : ∀ p ∈ ps, ∀ q ∈ ps, ∀ id x y, pkObj osz p id = some x → pkObj osz q id = some y → x = y) {id : Bytes} {o : Obj} :
    firstObj osz ps id = some o ↔ ∃ p ∈ ps, pkObj osz p id = some o := by
  unfold firstObj
  constructor
  · intro h; exact List.exists_of_findSome?_eq_some h
  · rintro ⟨p, hp, ho⟩
    cases h : ps.findSome? fun p => pkObj osz p id with
    | none =>
      rw [List.findSome?_eq_none_iff] at h
      rw [h p hp] at ho
      cases ho
    | some x =>
      obtain ⟨q, hq, hx⟩ := List.exists_of_findSome?_eq_some h
      rw [ha q hq p hp id x o hx ho]

theorem firstObj_congr {ps qs : List Pk} (ha : ∀ p ∈ ps, ∀ q ∈ ps, ∀ id x y, pkObj osz p id = some x → pkObj osz q id = some y → x = y) (h : ∀ p, p ∈ ps ↔ p ∈ qs) :
    firstObj osz ps = firstObj osz qs := by
  funext id
  refine Option.ext fun o => ?_
  rw [firstObj_iff ha, firstObj_iff (fun p hp q hq => ha p ((h p).mpr hp) q ((h q).mpr hq))]
  simp only [h]

theorem has_first {ps : List Pk} {id : Bytes} : Has (firstObj osz ps) id ↔ ∃ p ∈ ps, Has (pkObj osz p) id := by
  unfold Has firstObj
  simp only [List.findSome?_isSome_iff]

/-! ## full ids -/

theorem good_open (G : PackGood osz U b) : ∀ p ∈ openPacks b, ∀ q ∈ openPacks b, ∀ id x y, pkObj osz p id = some x → pkObj osz q id = some y → x = y :=
  fun p hp q hq => G.agree p (by simp [hp]) q (by simp [hq])

theorem good_right (G : PackGood osz U b) {p : Pk} (hp : p ∈ openPacks b) : PackRight osz p := G.right p (by simp [hp])

theorem midx_get (G : PackGood osz U b) {m : MidxF} (hm : b.midx = some m) {k : Nat} {n stem : Bytes} (hn : m.names[k]? = some n) (hs : stemOf n = some stem) : b.midxPacks[k]? = some (U stem) := by
  have h := (G.midx m hm).2
  have h1 := congrArg (fun l => l[k]?) h
  simp only [List.getElem?_map, hn, Option.map_some, hs] at h1
  cases hp : b.midxPacks[k]? with
  | none => rw [hp] at h1; cases h1
  | some p =>
    rw [hp] at h1
    injection h1 with h1

theorem midx_names (G : PackGood osz U b) {m : MidxF} (hm : b.midx = some m) {p : Pk} (hp : p ∈ b.midxPacks) : ∃ n ∈ m.names, ∃ stem, stemOf n = some stem ∧ p = U stem := by
  have h := (G.midx m hm).2
  have h1 : some p ∈ b.midxPacks.map some := List.mem_map.mpr ⟨p, hp, rfl⟩
  rw [h] at h1
  obtain ⟨n, hn, he⟩ := List.mem_map.mp h1
  cases hs : stemOf n with
  | none => rw [hs] at he; cases he
  | some stem => rw [hs] at he; injection he with he; exact ⟨n, hn, stem, hs, he.symm⟩

theorem midx_ents (G : PackGood osz U b) {m : MidxF} (hm : b.midx = some m) {ents : List (Bytes × (Nat × Nat))}
    (h2 : ∀ e ∈ ents, e.1.length = osz ∧ ∃ n stem o, m.names[e.2.1]? = some n ∧ stemOf n = some stem ∧ (U stem).get e.2.2 = .ok o ∧ pkObj osz (U stem) e.1 = some o)
    (h3 : ∀ n ∈ m.names, ∃ stem, stemOf n = some stem ∧ ∀ id o, pkObj osz (U stem) id = some o → ∃ e ∈ ents, e.1 = id) (id : Bytes) :
    (∃ p ∈ b.midxPacks, Has (pkObj osz p) id) ↔ ∃ e ∈ ents, e.1 = id := by
  constructor
  · rintro ⟨p, hp, hh⟩
    obtain ⟨o, ho⟩ := Option.isSome_iff_exists.mp hh
    obtain ⟨n, hn, stem, hs, rfl⟩ := midx_names G hm hp
    obtain ⟨stem', hs', h⟩ := h3 n hn
    rw [hs] at hs'
    injection hs' with hs'
    subst hs'
    exact h id o ho
  · rintro ⟨e, he, rfl⟩
    obtain ⟨_, n, stem, o, a, c, _, d⟩ := h2 e he
    exact ⟨U stem, List.mem_of_getElem? (midx_get G hm a c), by unfold Has; rw [d]; rfl⟩

theorem findMidx_prefix (G : PackGood osz U b) {key : Bytes} {len : Nat} (hk : key.length = osz) (hp : Padded len key) :
    Looked (fun id => ∃ p ∈ b.midxPacks, Has (pkObj osz p) id) key len (entId (findMidx b key len)) ∧
    ∀ e, findMidx b key len = .ok e → e.pk ∈ b.midxPacks ∧ ∃ o, e.pk.get e.off = .ok o ∧ pkObj osz e.pk e.id = some o := by
  unfold findMidx
  cases hm : b.midx with
  | none =>
    refine ⟨.none fun j hj hs => ?_, fun e he => (by cases he)⟩
    rw [G.nomidx hm] at hj
    obtain ⟨p, hp, _⟩ := hj
    cases hp
  | some m =>
    obtain ⟨⟨ents, h1, h2, h3⟩, _⟩ := G.midx m hm
    have hL := h1 key len hk hp
    have hE := midx_ents G hm h2 h3
    dsimp only
    generalize m.find key len = r at hL ⊢
    cases hL with
    | one i x hme hs hu =>
      obtain ⟨_, n, stem, o, a, c, d, f⟩ := h2 _ hme
      dsimp only at a d f ⊢
      rw [midx_get G hm a c]
      refine ⟨.one ((hE i).mpr ⟨_, hme, rfl⟩) hs fun j hj hjs => ?_, fun e he => ?_⟩
      · obtain ⟨e, he, rfl⟩ := (hE j).mp hj
        rw [hu e he hjs]
      · injection he with he
        subst he
        exact ⟨List.mem_of_getElem? (midx_get G hm a c), o, d, f⟩
    | none hn =>
      refine ⟨.none fun j hj hs => ?_, fun e he => (by cases he)⟩
      obtain ⟨e, he, rfl⟩ := (hE j).mp hj
      exact hn _ he hs
    | more d e hd he hne h3 h4 => exact ⟨.more ((hE _).mpr ⟨_, hd, rfl⟩) ((hE _).mpr ⟨_, he, rfl⟩) hne h3 h4, fun e he => (by cases he)⟩

theorem findMidx_full (G : PackGood osz U b) {id : Bytes} (hi : id.length = osz) :
    (∃ e o, findMidx b id (2 * osz) = .ok e ∧ e.pk ∈ b.midxPacks ∧ e.id = id ∧ e.pk.get e.off = .ok o ∧ pkObj osz e.pk id = some o) ∨
    ((∀ e, findMidx b id (2 * osz) ≠ .ok e) ∧ ∀ p ∈ b.midxPacks, pkObj osz p id = none) := by
  obtain ⟨L, h⟩ := findMidx_prefix G hi (padded_full hi)
  cases hr : findMidx b id (2 * osz) with
  | ok e =>
    obtain ⟨a, o, c, d⟩ := h e hr
    rw [hr] at L
    have : e.id = id := by
      cases L with
      | one _ hs _ => exact ((PackIdx.samePrefix_full (by rw [hi, pkObj_len d]) (by rw [pkObj_len d]; exact Nat.le_refl _)).mp hs).symm
    rw [this] at d
    exact .inl ⟨e, o, rfl, a, this, c, d⟩
  | err x =>
    refine .inr ⟨fun e => (by simp), fun p hp => ?_⟩
    rw [hr] at L
    cases ho : pkObj osz p id with
    | none => rfl
    | some o =>
      exfalso
      change Looked _ _ _ (.err x) at L
      cases L with
      | none hn => exact hn id ⟨p, hp, by unfold Has; rw [ho]; rfl⟩ rfl
      | more h1 h2 h3 h4 h5 =>
        obtain ⟨p1, _, q1⟩ := h1
        obtain ⟨p2, _, q2⟩ := h2
        obtain ⟨o1, r1⟩ := Option.isSome_iff_exists.mp q1
        obtain ⟨o2, r2⟩ := Option.isSome_iff_exists.mp q2
        have f1 := (PackIdx.samePrefix_full (by rw [hi, pkObj_len r1]) (by rw [pkObj_len r1]; exact Nat.le_refl _)).mp h4
        have f2 := (PackIdx.samePrefix_full (by rw [hi, pkObj_len r2]) (by rw [pkObj_len r2]; exact Nat.le_refl _)).mp h5
        exact h3 (f1.symm.trans f2)
  | ub =>
    rw [hr] at L
    cases L

theorem last_eq (G : PackGood osz U b) {p : Pk} (hp : p ∈ openPacks b) (h : isLast b.last p = true) : b.last = some p := by
  unfold isLast at h
  split at h
  · rename_i l hl
    rw [decide_eq_true_eq] at h
    obtain ⟨s, hs⟩ := G.known l (G.last l hl)
    obtain ⟨t, ht⟩ := G.known p hp
    rw [hs, ht, G.named, G.named] at h
    have := List.append_cancel_right h
    rw [hl, hs, ht, this]
  · cases h

theorem entryLoop_spec (G : PackGood osz U b) {id : Bytes} (hi : id.length = osz) : ∀ ps : List Pk, (∀ p ∈ ps, p ∈ openPacks b) →
    (∃ e o, entryLoop b.last id (2 * osz) ps = some e ∧ e.pk ∈ ps ∧ e.id = id ∧ e.pk.get e.off = .ok o ∧ pkObj osz e.pk id = some o) ∨
    (entryLoop b.last id (2 * osz) ps = none ∧ ∀ p ∈ ps, b.last = some p ∨ pkObj osz p id = none) := by
  intro ps
  induction ps with
  | nil => intro _; exact .inr ⟨rfl, fun p hp => (by cases hp)⟩
  | cons p ps ih =>
    intro h
    have hpo := h p (by simp)
    unfold entryLoop
    cases hl : isLast b.last p with
    | true =>
      rw [if_pos rfl]
      rcases ih fun q hq => h q (by simp [hq]) with ⟨e, o, a, c, d⟩ | ⟨a, c⟩
      · exact .inl ⟨e, o, a, by simp [c], d⟩
      · refine .inr ⟨a, fun q hq => ?_⟩
        rcases List.mem_cons.mp hq with rfl | hq
        · exact .inl (last_eq G hpo hl)
        · exact c q hq
    | false =>
      rw [if_neg (by simp)]
      rcases findIn_full (good_right G hpo) hi with ⟨e, o, a, rfl, d⟩ | ⟨a, hn⟩
      · rw [a]
        exact .inl ⟨e, o, rfl, by simp, d⟩
      · rw [a]
        rcases ih fun q hq => h q (by simp [hq]) with ⟨e, o, a, c, d⟩ | ⟨a, c⟩
        · exact .inl ⟨e, o, a, by simp [c], d⟩
        · refine .inr ⟨a, fun q hq => ?_⟩
          rcases List.mem_cons.mp hq with rfl | hq
          · exact .inr hn
          · exact c q hq

theorem good_last (G : PackGood osz U b) {l : Option Pk} (hl : ∀ p, l = some p → p ∈ openPacks b) : PackGood osz U { b with last := l } :=
  ⟨G.size, G.right, G.agree, G.known, G.opens, G.named, G.apart, G.midx, G.nomidx, hl, G.dir, G.listing, G.diskMidx⟩

/-- only `last_found` was changed -/
def SameButLast (b b' : PackB) : Prop := ∃ l, b' = { b with last := l }

theorem findLast_full (G : PackGood osz U b) {id : Bytes} (hi : id.length = osz) :
    (∃ e o, findLast b id (2 * osz) = .ok e ∧ e.pk.get e.off = .ok o ∧ firstObj osz (openPacks b) id = some o) ∨
    (findLast b id (2 * osz) = .err (-3) ∧ ∀ l, b.last = some l → pkObj osz l id = none) := by
  unfold findLast
  cases hl : b.last with
  | none => exact .inr ⟨rfl, fun l h => (by cases h)⟩
  | some l =>
    have hlo := G.last l hl
    rcases findIn_full (good_right G hlo) hi with ⟨e, o, a, c, _, d, f⟩ | ⟨a, hn⟩
    · exact .inl ⟨e, o, a, by rw [c]; exact d, (firstObj_iff (good_open G)).mpr ⟨l, hlo, f⟩⟩
    · exact .inr ⟨a, fun l' h => by injection h with h; rw [← h]; exact hn⟩

theorem entryFindPacks_spec (G : PackGood osz U b) {id : Bytes} (hi : id.length = osz) (hmid : ∀ p ∈ b.midxPacks, pkObj osz p id = none) :
    PackGood osz U (entryFindPacks b id).1 ∧ SameButLast b (entryFindPacks b id).1 ∧
    ((∃ e o, (entryFindPacks b id).2 = .ok e ∧ e.pk.get e.off = .ok o ∧ firstObj osz (openPacks b) id = some o) ∨
      ((entryFindPacks b id).2 = .err (-3) ∧ firstObj osz (openPacks b) id = none)) := by
  have same : SameButLast b b := ⟨b.last, rfl⟩
  have hsz : 2 * b.osz = 2 * osz := by rw [G.size]
  unfold entryFindPacks
  rw [hsz]
  rcases findLast_full G hi with ⟨e, o, a, c, d⟩ | ⟨a, hnl⟩
  · rw [a]
    exact ⟨G, same, .inl ⟨e, o, rfl, c, d⟩⟩
  · rw [a]
    dsimp only
    rcases entryLoop_spec G hi b.packs (fun p hp => by simp [openPacks, hp]) with ⟨e, o, h1, h2, _, h4, h5⟩ | ⟨h1, h2⟩
    · rw [h1]
      have hpo : e.pk ∈ openPacks b := by simp [openPacks, h2]
      exact ⟨good_last G fun p h => by injection h with h; rw [← h]; exact hpo, ⟨_, rfl⟩,
        .inl ⟨e, o, rfl, h4, (firstObj_iff (good_open G)).mpr ⟨_, hpo, h5⟩⟩⟩
    · rw [h1]
      refine ⟨G, same, .inr ⟨rfl, ?_⟩⟩
      unfold firstObj
      rw [List.findSome?_eq_none_iff]
      intro p hp
      rcases List.mem_append.mp hp with hp | hp
      · exact hmid p hp
      · rcases h2 p hp with h | h
        · exact hnl p h
        · exact h

theorem entryFind_spec (G : PackGood osz U b) {id : Bytes} (hi : id.length = osz) :
    PackGood osz U (entryFind b id).1 ∧ SameButLast b (entryFind b id).1 ∧
    ((∃ e o, (entryFind b id).2 = .ok e ∧ e.pk.get e.off = .ok o ∧ firstObj osz (openPacks b) id = some o) ∨
      ((entryFind b id).2 = .err (-3) ∧ firstObj osz (openPacks b) id = none)) := by
  have same : SameButLast b b := ⟨b.last, rfl⟩
  unfold entryFind
  rw [G.size]
  rcases findMidx_full G hi with ⟨e, o, h1, h2, _, h4, h5⟩ | ⟨h1, hmid⟩
  · rw [h1]
    exact ⟨G, same, .inl ⟨e, o, rfl, h4, (firstObj_iff (good_open G)).mpr ⟨_, by simp [openPacks, h2], h5⟩⟩⟩
  · generalize findMidx b id (2 * osz) = r at h1
    have hcont := entryFindPacks_spec G hi hmid
    cases r with
    | ok e => exact (h1 e rfl).elim
    | err _ => exact hcont
    | ub => exact hcont

/-! ## abbreviations -/

/-- what has been found so far -/
structure FoundOk (osz : Nat) (b : PackB) (A : Bytes → Prop) (key : Bytes) (len : Nat) (found : Option Ent) : Prop where
  looked : Looked A key len (match found with
    | some e => .ok e.id
    | none => .err (-3))
  value : ∀ e, found = some e → ∃ o, e.pk.get e.off = .ok o ∧ firstObj osz (openPacks b) e.id = some o

theorem looked_more {A B : Bytes → Prop} {key : Bytes} {len : Nat} (h : ∀ i, A i → B i) (hl : Looked A key len (.err (-5))) : Looked B key len (.err (-5)) := by
  cases hl with
  | more a c d e f => exact .more (h _ a) (h _ c) d e f

theorem joinFound_spec {A B : Bytes → Prop} {key : Bytes} {len : Nat} {found : Option Ent} {r : Res Ent} (hf : FoundOk osz b A key len found) (hr : Looked B key len (entId r))
    (hv : ∀ e, r = .ok e → ∃ o, e.pk.get e.off = .ok o ∧ firstObj osz (openPacks b) e.id = some o) :
    (∃ f, joinFound found r = .ok f ∧ FoundOk osz b (fun i => A i ∨ B i) key len f) ∨
    (joinFound found r = .err (-5) ∧ Looked (fun i => A i ∨ B i) key len (.err (-5))) := by
  obtain ⟨hl, hval⟩ := hf
  unfold joinFound
  cases r with
  | ub => cases hr
  | err e =>
    change Looked B key len (.err e) at hr
    dsimp only
    cases hr with
    | none hn =>
      refine .inl ⟨found, rfl, ?_, hval⟩
      cases found with
      | none => cases hl with | none hu => exact .none fun j hj => hj.elim (hu j) (hn j)
      | some y => cases hl with | one h1 h2 h3 => exact .one (.inl h1) h2 fun j hj hs => hj.elim (fun h => h3 j h hs) fun h => (hn j h hs).elim
    | more a c d e f => exact .inr ⟨rfl, .more (.inr a) (.inr c) d e f⟩
  | ok x =>
    change Looked B key len (.ok x.id) at hr
    cases hr with
    | one h1 h2 h3 =>
      cases found with
      | none =>
        refine .inl ⟨some x, rfl, ?_, fun e he => hv e (by injection he with he; rw [he])⟩
        cases hl with
        | none hu => exact .one (.inr h1) h2 fun j hj hs => hj.elim (fun h => (hu j h hs).elim) fun h => h3 j h hs
      | some y =>
        dsimp only
        cases hl with
        | one u1 u2 u3 =>
          by_cases hyx : y.id = x.id
          · rw [if_neg (by simp [hyx])]
            exact .inl ⟨some x, rfl, .one (.inr h1) h2 fun j hj hs => hj.elim (fun h => (u3 j h hs).trans hyx) fun h => h3 j h hs,
              fun e he => hv e (by injection he with he; rw [he])⟩
          · rw [if_pos hyx]
            exact .inr ⟨rfl, .more (.inl u1) (.inr h1) hyx u2 h2⟩

theorem prefixPacks_spec (G : PackGood osz U b) {key : Bytes} {len : Nat} (hk : key.length = osz) (hp : Padded len key) : ∀ (ps : List Pk) (found : Option Ent) (l : Option Pk)
    (A : Bytes → Prop), (∀ p ∈ ps, p ∈ openPacks b) → (∀ p, l = some p → p ∈ openPacks b) → (∀ q, b.last = some q → ∀ i, Has (pkObj osz q) i → A i) → FoundOk osz b A key len found →
    (∀ p, (prefixPacks b.last key len ps found l).1 = some p → p ∈ openPacks b) ∧
    ((∃ f, (prefixPacks b.last key len ps found l).2 = .ok f ∧ FoundOk osz b (fun i => A i ∨ ∃ p ∈ ps, Has (pkObj osz p) i) key len f) ∨
      ((prefixPacks b.last key len ps found l).2 = .err (-5) ∧ Looked (fun i => A i ∨ ∃ p ∈ ps, Has (pkObj osz p) i) key len (.err (-5)))) := by
  intro ps
  induction ps with
  | nil =>
    intro found l A _ hl _ hf
    refine ⟨hl, .inl ⟨found, rfl, ?_⟩⟩
    have : (fun i => A i ∨ ∃ p ∈ ([] : List Pk), Has (pkObj osz p) i) = A := by funext i; simp
    rw [this]
    exact hf
  | cons p ps ih =>
    intro found l A hps hl hA hf
    have hpo := hps p (by simp)
    have hps' : ∀ q ∈ ps, q ∈ openPacks b := fun q hq => hps q (by simp [hq])
    unfold prefixPacks
    cases hil : isLast b.last p with
    | true =>
      rw [if_pos rfl]
      have hlp := last_eq G hpo hil
      have : (fun i => A i ∨ ∃ q ∈ p :: ps, Has (pkObj osz q) i) = (fun i => A i ∨ ∃ q ∈ ps, Has (pkObj osz q) i) := by
        funext i
        refine propext ⟨?_, ?_⟩
        · rintro (h | ⟨q, hq, h⟩)
          · exact .inl h
          · rcases List.mem_cons.mp hq with rfl | hq
            · exact .inl (hA _ hlp i h)
            · exact .inr ⟨q, hq, h⟩
        · rintro (h | ⟨q, hq, h⟩)
          · exact .inl h
          · exact .inr ⟨q, by simp [hq], h⟩
      rw [this]
      exact ih found l A hps' hl hA hf
    | false =>
      rw [if_neg (by simp)]
      obtain ⟨L, hv⟩ := findIn_prefix (good_right G hpo) hk hp
      have heq : (fun i => A i ∨ ∃ q ∈ p :: ps, Has (pkObj osz q) i) = (fun i => (A i ∨ Has (pkObj osz p) i) ∨ ∃ q ∈ ps, Has (pkObj osz q) i) := by
        funext i
        simp only [List.mem_cons, exists_eq_or_imp, or_assoc]
      rw [heq]
      rcases joinFound_spec (b := b) hf L (fun e he => by
        obtain ⟨h1, o, h2, h3⟩ := hv e he
        exact ⟨o, by rw [h1]; exact h2, (firstObj_iff (good_open G)).mpr ⟨p, hpo, h3⟩⟩) with ⟨f, h1, h2⟩ | ⟨h1, h2⟩
      · rw [h1]
        refine ih f _ (fun i => A i ∨ Has (pkObj osz p) i) hps' ?_ (fun q hq i h => .inl (hA q hq i h)) h2
        intro q hq
        split at hq
        · injection hq with hq; rw [← hq]; exact hpo
        · exact hl q hq
      · rw [h1]
        exact ⟨hl, .inr ⟨rfl, looked_more (fun i h => .inl h) h2⟩⟩

theorem entryFindPrefix_spec (G : PackGood osz U b) {key : Bytes} {len : Nat} (hk : key.length = osz) (hp : Padded len key) :
    PackGood osz U (entryFindPrefix b key len).1 ∧ SameButLast b (entryFindPrefix b key len).1 ∧
    Looked (Has (firstObj osz (openPacks b))) key len (entId (entryFindPrefix b key len).2) ∧
    ∀ e, (entryFindPrefix b key len).2 = .ok e → ∃ o, e.pk.get e.off = .ok o ∧ firstObj osz (openPacks b) e.id = some o := by
  have same : SameButLast b b := ⟨b.last, rfl⟩
  have h0 : FoundOk osz b (fun _ => False) key len none := ⟨.none fun _ h => h.elim, fun e he => (by cases he)⟩
  obtain ⟨L1, v1⟩ := findMidx_prefix G hk hp
  unfold entryFindPrefix
  rcases joinFound_spec (b := b) h0 L1 (fun e he => by
    obtain ⟨a, o, c, d⟩ := v1 e he
    exact ⟨o, c, (firstObj_iff (good_open G)).mpr ⟨_, by simp [openPacks, a], d⟩⟩) with ⟨f1, e1, k1⟩ | ⟨e1, k1⟩
  swap
  · rw [e1]
    refine ⟨G, same, looked_more (fun i h => ?_) k1, fun e he => (by cases he)⟩
    rcases h with h | ⟨p, hp, h⟩
    · exact h.elim
    · exact has_first.mpr ⟨p, by simp [openPacks, hp], h⟩
  rw [e1]
  dsimp only
  have hlast : Looked (fun i => ∃ l, b.last = some l ∧ Has (pkObj osz l) i) key len (entId (findLast b key len)) ∧
      ∀ e, findLast b key len = .ok e → ∃ o, e.pk.get e.off = .ok o ∧ firstObj osz (openPacks b) e.id = some o := by
    unfold findLast
    cases hl : b.last with
    | none => exact ⟨.none (fun j ⟨l, h, _⟩ => (by cases h)), fun e he => (by cases he)⟩
    | some l =>
      obtain ⟨L, hv⟩ := findIn_prefix (good_right G (G.last l hl)) hk hp
      have : (fun i => ∃ l', some l = some l' ∧ Has (pkObj osz l') i) = Has (pkObj osz l) := by funext i; simp
      rw [this]
      refine ⟨L, fun e he => ?_⟩
      obtain ⟨h1, o, h2, h3⟩ := hv e he
      exact ⟨o, by rw [h1]; exact h2, (firstObj_iff (good_open G)).mpr ⟨l, G.last l hl, h3⟩⟩
  rcases joinFound_spec (b := b) k1 hlast.1 hlast.2 with ⟨f2, e2, k2⟩ | ⟨e2, k2⟩
  swap
  · rw [e2]
    refine ⟨G, same, looked_more (fun i h => ?_) k2, fun e he => (by cases he)⟩
    rcases h with (h | ⟨p, hp, h⟩) | ⟨l, hl, h⟩
    · exact h.elim
    · exact has_first.mpr ⟨p, by simp [openPacks, hp], h⟩
    · exact has_first.mpr ⟨l, G.last l hl, h⟩
  rw [e2]
  dsimp only
  obtain ⟨hl, hr⟩ := prefixPacks_spec G hk hp b.packs f2 b.last _ (fun p hp => by simp [openPacks, hp]) G.last (fun q hq i h => .inr ⟨q, hq, h⟩) k2
  have hset : (fun i => ((False ∨ ∃ p ∈ b.midxPacks, Has (pkObj osz p) i) ∨ ∃ l, b.last = some l ∧ Has (pkObj osz l) i) ∨ ∃ p ∈ b.packs, Has (pkObj osz p) i) =
      Has (firstObj osz (openPacks b)) := by
    funext i
    refine propext ?_
    rw [has_first]
    constructor
    · rintro (((h | ⟨p, hp, h⟩) | ⟨l, hl, h⟩) | ⟨p, hp, h⟩)
      · exact h.elim
      · exact ⟨p, by simp [openPacks, hp], h⟩
      · exact ⟨l, G.last l hl, h⟩
      · exact ⟨p, by simp [openPacks, hp], h⟩
    · rintro ⟨p, hp, h⟩
      rcases List.mem_append.mp hp with hp | hp
      · exact .inl (.inl (.inr ⟨p, hp, h⟩))
      · exact .inr ⟨p, hp, h⟩
  rw [hset] at hr
  generalize prefixPacks b.last key len b.packs f2 b.last = r at hl hr ⊢
  obtain ⟨l, r⟩ := r
  dsimp only at hl hr ⊢
  refine ⟨good_last G hl, ⟨l, rfl⟩, ?_⟩
  rcases hr with ⟨f, rfl, k⟩ | ⟨rfl, k⟩
  · cases f with
    | none => exact ⟨k.looked, fun e he => (by cases he)⟩
    | some e => exact ⟨k.looked, fun e' he => k.value e' (by injection he with he; rw [he])⟩
  · exact ⟨k, fun e he => (by cases he)⟩

end Verif.Odb
