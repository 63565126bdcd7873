import Verif.RefDb.Spec
import Verif.RefPacked.Props
/-! # Reference values and the packed cache, without concurrency -/
namespace Verif.RefDb
open Verif.FileBuf Verif.RefPacked Verif.RefPacked.Spec Verif.Oid.Spec

/-! ## Comparing with the expected value -/

theorem cmpOld_true {size : Nat} {cur : Res RefVal} {a b : Option Bytes} (h : cmpOld size cur a b = .ok true) : Matches size a b cur := by
  unfold cmpOld at h
  split at h
  · split at h
    · rename_i e hh; right; left; rw [hh.1]; exact ⟨rfl, hh.2⟩
    · cases h
  · cases h
  · split at h
    · cases h
    · have := of_decide_eq_true (Res.ok.inj h)
      subst this
      right; right; left; exact ⟨_, rfl, rfl, rfl⟩
    · left; exact ⟨rfl, rfl⟩
  · split at h
    · cases h
    · have := of_decide_eq_true (Res.ok.inj h)
      subst this
      right; right; right; exact ⟨_, rfl, rfl, rfl⟩
    · left; exact ⟨rfl, rfl⟩

theorem cmpOld_false {size : Nat} {cur : Res RefVal} {a b : Option Bytes} (h : cmpOld size cur a b = .ok false) : ¬ Matches size a b cur := by
  unfold cmpOld at h
  rintro (⟨rfl, rfl⟩ | ⟨rfl, rfl⟩ | ⟨x, rfl, rfl, rfl⟩ | ⟨t, rfl, rfl, rfl⟩)
  · split at h
    · split at h <;> cases h
    · cases h
    · cases h
    · cases h
  · simp at h
  · simp at h
  · simp at h

theorem cmpOld_err {size : Nat} {cur : Res RefVal} {a b : Option Bytes} {e : Int} (h : cmpOld size cur a b = .err e) : cur = .err e := by
  unfold cmpOld at h
  split at h
  · split at h
    · cases h
    · cases h; rfl
  · cases h
  · split at h <;> cases h
  · split at h <;> cases h

/-! ## Loose files -/

theorem symPrefix_hex {size : Nat} (hs : 0 < size) (id : Bytes) (h : id.length = size) (R : Bytes) : symPrefix.isPrefixOf (hex id ++ R) = false := by
  cases hp : symPrefix.isPrefixOf (hex id ++ R) with
  | false => rfl
  | true =>
    exfalso
    obtain ⟨t, ht⟩ := (isPrefixOf_iff _ _).mp hp
    cases id with
    | nil => simp at h; omega
    | cons x id =>
      simp only [hex, nibbles, List.map_cons, List.cons_append, symPrefix] at ht
      have h1 : digit (x / 16) = 114 := (List.cons.inj ht).1
      have : ∀ x : UInt8, digit (x / 16) ≠ 114 := by
        apply forall_uint8
        decide +kernel
      exact this x h1

theorem hex_length (id : Bytes) : (hex id).length = 2 * id.length := by
  unfold hex; rw [List.length_map]
  induction id with
  | nil => rfl
  | cons x id ih => simp only [nibbles, List.length_cons, ih]; omega

theorem looseParseOid_hex {size : Nat} (hs : 0 < size) (id : Bytes) (h : id.length = size) : looseParseOid size (hex id ++ [10]) = .ok id := by
  unfold looseParseOid
  have hl := hex_length id
  rw [if_neg (by simp [hl, h]), List.append_assoc, fromPrefix_hex hs id h]
  have : (hex id ++ ([10] ++ [0]))[2 * size]? = some 10 := by
    rw [List.getElem?_append_right (by omega), show 2 * size - (hex id).length = 0 by omega]; rfl
  rw [this]
  rfl

theorem rtrim_nl (t : Bytes) (h : ∀ c, t.getLast? = some c → isspace c = false) : rtrim (t ++ [10]) = t := by
  unfold rtrim
  rw [List.reverse_append]
  show (List.dropWhile isspace (10 :: t.reverse)).reverse = t
  rw [List.dropWhile_cons_of_pos (by decide)]
  cases ht : t.reverse with
  | nil => simp at ht; subst ht; rfl
  | cons c u =>
    have hl : t.getLast? = some c := by rw [← List.head?_reverse, ht]; rfl
    rw [List.dropWhile_cons_of_neg (by rw [h c hl]; decide), ← ht, List.reverse_reverse]

theorem takeWhile_all (t : Bytes) (h : (0 : UInt8) ∉ t) : t.takeWhile (· != 0) = t := by
  induction t with
  | nil => rfl
  | cons a t ih => rw [List.takeWhile_cons_of_pos (by simp; rintro rfl; exact h (by simp)), ih (fun h' => h (by simp [h']))]

/-- the text that is written for a value is read back as that value -/
theorem looseText_parse {size : Nat} (hs : 0 < size) (v : RefVal) (hv : v.Valid size) : ∃ t, looseText size v = .ok t ∧ looseParse size t = .ok v := by
  cases v with
  | oid x =>
    have hx : x.length = size := hv
    refine ⟨hex x ++ [10], ?_, ?_⟩
    · have := Oid.C02_fmt x
      rw [hx] at this
      simp [looseText, this]
    · unfold looseParse
      rw [symPrefix_hex hs x hx, looseParseOid_hex hs x hx]
      rfl
  | sym t =>
    obtain ⟨h1, h2, h3⟩ := hv
    refine ⟨symPrefix ++ t ++ [10], rfl, ?_⟩
    have hlast : ∀ c, (symPrefix ++ t).getLast? = some c → isspace c = false := by
      intro c hc
      rw [List.getLast?_append] at hc
      cases ht : t.getLast? with
      | none => rw [List.getLast?_eq_none_iff] at ht; exact absurd ht h1
      | some d => rw [ht] at hc; simp at hc; exact h3 c (by rw [ht, hc])
    unfold looseParse
    rw [if_pos ((isPrefixOf_iff _ _).mpr ⟨t ++ [10], by simp⟩), rtrim_nl _ hlast]
    have : ¬ (symPrefix ++ t).length < symPrefix.length + 1 := by
      cases t with
      | nil => exact absurd rfl h1
      | cons a t => simp
    rw [if_neg this, List.drop_left, takeWhile_all t h2]

/-! ## The cache of packed references -/

/-- what the cache says about a name -/
def cacheVal (c : List Ent) (n : Path) : Res RefVal :=
  match c.find? (fun r => decide (r.1.name = n)) with
  | some r => .ok (.oid r.1.oid)
  | none => .err ENOTFOUND

/-- what the packed file says about a name -/
def packedVal (size : Nat) (o : Option Bytes) (n : Path) : Res RefVal :=
  match o with
  | none => .err ENOTFOUND
  | some b =>
    match lookup size b n false with
    | .ok (id, _) => .ok (.oid id)
    | .err e => .err e
    | .ub => .ub

theorem val_eq (size : Nat) (s : FS) (n : Path) : val size s n =
    match s.content n with
    | some b => looseParse size b
    | none => packedVal size (s.content packedRefs) n := rfl

structure EntOk (size : Nat) (r : Ent) : Prop where
  ne : r.1.name ≠ []
  nl : (10 : UInt8) ∉ r.1.name
  nul : (0 : UInt8) ∉ r.1.name
  cr : r.1.name.getLast? ≠ some 13
  oid : r.1.oid.length = size
  peel : ∀ p, r.1.peel = some p → p.length = size

/-- the entries are well formed and their names distinct -/
structure CacheOk (size : Nat) (c : List Ent) : Prop where
  ent : ∀ r ∈ c, EntOk size r
  distinct : c.Pairwise (fun a b => a.1.name ≠ b.1.name)

theorem cacheVal_mem {c : List Ent} (hd : c.Pairwise (fun a b => a.1.name ≠ b.1.name)) (r : Ent) (hr : r ∈ c) : cacheVal c r.1.name = .ok (.oid r.1.oid) := by
  unfold cacheVal
  induction c with
  | nil => cases hr
  | cons x c ih =>
    obtain ⟨h1, h2⟩ := List.pairwise_cons.mp hd
    rcases List.mem_cons.mp hr with rfl | h
    · simp
    · rw [List.find?_cons_of_neg (by simpa using h1 r h)]
      exact ih h2 h

theorem cacheVal_none {c : List Ent} {n : Path} (h : ∀ r ∈ c, r.1.name ≠ n) : cacheVal c n = .err ENOTFOUND := by
  unfold cacheVal
  rw [List.find?_eq_none.mpr (by intro r hr; simpa using h r hr)]

theorem cacheVal_cases {c : List Ent} (hd : c.Pairwise (fun a b => a.1.name ≠ b.1.name)) (n : Path) :
    (∃ r ∈ c, r.1.name = n ∧ cacheVal c n = .ok (.oid r.1.oid)) ∨ ((∀ r ∈ c, r.1.name ≠ n) ∧ cacheVal c n = .err ENOTFOUND) := by
  by_cases h : ∃ r ∈ c, r.1.name = n
  · obtain ⟨r, hr, rfl⟩ := h
    exact .inl ⟨r, hr, rfl, cacheVal_mem hd r hr⟩
  · have : ∀ r ∈ c, r.1.name ≠ n := fun r hr e => h ⟨r, hr, e⟩
    exact .inr ⟨this, cacheVal_none this⟩

/-! ### Loading the packed file -/

theorem upsert_new (c : List PackRef) (n o : Bytes) (p : Option Bytes) (h : ∀ r ∈ c, r.name ≠ n) : upsert c n o p = c ++ [⟨n, o, p⟩] := by
  induction c with
  | nil => rfl
  | cons x c ih =>
    unfold upsert
    rw [if_neg (h x (by simp)), ih (fun r hr => h r (by simp [hr]))]
    rfl

theorem foldl_upsert (recs : List Rec) (c : List PackRef) (hd : recs.Pairwise (fun a b => a.name ≠ b.name))
    (hc : ∀ r ∈ recs, ∀ p ∈ c, p.name ≠ r.name) :
    recs.foldl (fun c r => upsert c r.name r.oid r.peel) c = c ++ recs.map (fun r => ⟨r.name, r.oid, r.peel⟩) := by
  induction recs generalizing c with
  | nil => simp
  | cons r recs ih =>
    obtain ⟨h1, h2⟩ := List.pairwise_cons.mp hd
    rw [List.foldl_cons, upsert_new c _ _ _ (hc r (by simp)), ih _ h2]
    · simp
    · intro x hx p hp
      rcases List.mem_append.mp hp with h | h
      · exact hc x (by simp [hx]) p h
      · rw [List.mem_singleton.mp h]; exact h1 x hx

/-- loading a well-formed file gives a well-formed cache that answers as the file does -/
theorem reload_ok {size : Nat} (hs : 0 < size) {b : Bytes} (h : PackedFile size b) :
    ∃ c, packedReload size b = .ok c ∧ CacheOk size (c.map (fun r => (r, false))) ∧
      ∀ n, packedVal size (some b) n = cacheVal (c.map (fun r => (r, false))) n := by
  obtain ⟨lines, recs, rfl, hl, hv, ht, hd, hsort⟩ := h
  have hre := packedReload_ok hs lines hl recs hv ht
  rw [foldl_upsert recs [] hd (by simp), List.nil_append] at hre
  refine ⟨_, hre, ⟨?_, ?_⟩, ?_⟩
  · intro r hr
    simp only [List.map_map, List.mem_map] at hr
    obtain ⟨x, hx, rfl⟩ := hr
    exact ⟨(hv x hx).name_ne, (hv x hx).name_nl, (ht x hx).1, (ht x hx).2, (hv x hx).oid_len, (hv x hx).peel_len⟩
  · rw [List.map_map, List.pairwise_map]
    exact hd
  · intro n
    have key : lookup size (file lines recs) n false =
        match recs.find? (fun r => decide (r.name = n)) with
        | some r => .ok (r.oid, r.peel)
        | none => .err ENOTFOUND := by
      unfold lookup
      split
      · rename_i k hk
        exact packedLookup_ok hs lines (fun l h => (hl l h).1) recs hv (hsort ⟨k, hk⟩) n
      · unfold unsortedLookup
        rw [hre]
        simp only [Res.bind_ok, List.find?_map]
        have e : ((fun r : PackRef => decide (r.name = n)) ∘ fun r : Rec => (⟨r.name, r.oid, r.peel⟩ : PackRef)) = fun r => decide (r.name = n) := rfl
        rw [e]
        cases recs.find? (fun r => decide (r.name = n)) <;> rfl
    unfold packedVal cacheVal
    simp only [key, List.map_map, List.find?_map]
    have e : ((fun r : Ent => decide (r.1.name = n)) ∘ ((fun r => (r, false)) ∘ fun r : Rec => (⟨r.name, r.oid, r.peel⟩ : PackRef))) =
        fun r => decide (r.name = n) := rfl
    rw [e]
    cases recs.find? (fun r => decide (r.name = n)) <;> rfl

/-! ### Adding loose references -/

theorem upsertLoose_mem {c : List Ent} {n o : Bytes} : ∀ r ∈ upsertLoose c n o, r = (⟨n, o, none⟩, true) ∨ (r ∈ c ∧ r.1.name ≠ n) ∨ (r ∈ c) := by
  induction c with
  | nil => intro r hr; simp [upsertLoose] at hr; left; exact hr
  | cons x c ih =>
    intro r hr
    unfold upsertLoose at hr
    split at hr
    · rcases List.mem_cons.mp hr with h | h
      · left; exact h
      · right; right; simp [h]
    · rcases List.mem_cons.mp hr with h | h
      · right; right; simp [h]
      · rcases ih r h with h | h | h
        · left; exact h
        · right; right; simp [h.1]
        · right; right; simp [h]

theorem upsertLoose_names {c : List Ent} {n o : Bytes} : ∀ r ∈ upsertLoose c n o, r.1.name = n ∨ ∃ x ∈ c, x.1.name = r.1.name := by
  intro r hr
  rcases upsertLoose_mem r hr with h | h | h
  · left; rw [h]
  · right; exact ⟨r, h.1, rfl⟩
  · right; exact ⟨r, h, rfl⟩

theorem upsertLoose_ok {size : Nat} {c : List Ent} (h : CacheOk size c) (n o : Bytes) (hn : RefName n) (ho : o.length = size) :
    CacheOk size (upsertLoose c n o) ∧ ∀ m, m ≠ n → cacheVal (upsertLoose c n o) m = cacheVal c m := by
  constructor
  · constructor
    · intro r hr
      rcases upsertLoose_mem r hr with rfl | h' | h'
      · exact ⟨hn.ne, hn.nl, hn.nul, hn.cr, ho, fun p e => by cases e⟩
      · exact h.ent r h'.1
      · exact h.ent r h'
    · have hd := h.distinct
      clear h
      induction c with
      | nil => simp [upsertLoose]
      | cons x c ih =>
        obtain ⟨h1, h2⟩ := List.pairwise_cons.mp hd
        unfold upsertLoose
        split
        · rename_i hx
          refine List.pairwise_cons.mpr ⟨?_, h2⟩
          intro y hy
          simp only
          rw [← hx]; exact h1 y hy
        · rename_i hx
          refine List.pairwise_cons.mpr ⟨?_, ih h2⟩
          intro y hy
          rcases upsertLoose_names y hy with e | ⟨z, hz, e⟩
          · rw [e]; exact hx
          · rw [← e]; exact h1 z hz
  · intro m hm
    unfold cacheVal
    have : (upsertLoose c n o).find? (fun r => decide (r.1.name = m)) = c.find? (fun r => decide (r.1.name = m)) := by
      clear h
      induction c with
      | nil => simp [upsertLoose, Ne.symm hm]
      | cons x c ih =>
        unfold upsertLoose
        split
        · rename_i hx
          rw [List.find?_cons_of_neg (by simpa using Ne.symm hm), List.find?_cons_of_neg (by rw [hx]; simpa using Ne.symm hm)]
        · by_cases hx : x.1.name = m
          · rw [List.find?_cons_of_pos (by simpa using hx), List.find?_cons_of_pos (by simpa using hx)]
          · rw [List.find?_cons_of_neg (by simpa using hx), List.find?_cons_of_neg (by simpa using hx), ih]
    rw [this]

/-! ### Writing the packed file -/

theorem insertSorted_perm (a : Ent) (c : List Ent) : (sortCache.insertSorted a c).Perm (a :: c) := by
  induction c with
  | nil => exact .refl _
  | cons b bs ih =>
    unfold sortCache.insertSorted
    split
    · exact .refl _
    · exact (ih.cons b).trans (.swap a b bs)

theorem sortCache_perm (c : List Ent) : (sortCache c).Perm c := by
  induction c with
  | nil => exact .refl _
  | cons a c ih => exact (insertSorted_perm a _).trans (ih.cons a)

theorem insertSorted_pairwise (a : Ent) (c : List Ent) (h : c.Pairwise (fun a b => a.1.name ≤ b.1.name)) :
    (sortCache.insertSorted a c).Pairwise (fun a b => a.1.name ≤ b.1.name) := by
  induction c with
  | nil => exact List.pairwise_singleton _ _
  | cons b bs ih =>
    rw [List.pairwise_cons] at h
    unfold sortCache.insertSorted
    split
    · rename_i hle
      refine List.pairwise_cons.mpr ⟨?_, List.pairwise_cons.mpr h⟩
      intro x hx
      rcases List.mem_cons.mp hx with rfl | hx
      · exact hle
      · exact List.le_trans hle (h.1 x hx)
    · rename_i hle
      refine List.pairwise_cons.mpr ⟨?_, ih h.2⟩
      intro x hx
      rcases List.mem_cons.mp ((insertSorted_perm a bs).mem_iff.mp hx) with rfl | hx
      · exact (List.le_total _ _).resolve_left hle
      · exact h.1 x hx

theorem sortCache_sorted {size : Nat} {c : List Ent} (h : CacheOk size c) : (sortCache c).Pairwise (fun a b => a.1.name < b.1.name) := by
  have h1 : (sortCache c).Pairwise (fun a b => a.1.name ≤ b.1.name) := by
    have : ∀ c : List Ent, (sortCache c).Pairwise (fun a b => a.1.name ≤ b.1.name) := by
      intro c
      induction c with
      | nil => exact .nil
      | cons a c ih => exact insertSorted_pairwise a _ ih
    exact this c
  have h2 : (sortCache c).Pairwise (fun a b => a.1.name ≠ b.1.name) :=
    ((sortCache_perm c).pairwise_iff (fun h => Ne.symm h)).mpr h.distinct
  exact (h1.and h2).imp (fun ⟨a, b⟩ => B.lt_of_le_of_ne a b)

theorem cacheVal_perm {c d : List Ent} (hp : d.Perm c) (hd : c.Pairwise (fun a b => a.1.name ≠ b.1.name)) (n : Path) : cacheVal d n = cacheVal c n := by
  have hd' : d.Pairwise (fun a b => a.1.name ≠ b.1.name) := (hp.pairwise_iff (fun h => Ne.symm h)).mpr hd
  rcases cacheVal_cases hd' n with ⟨r, hr, rfl, h⟩ | ⟨h1, h⟩
  · rw [h, cacheVal_mem hd r (hp.mem_iff.mp hr)]
  · rw [h, cacheVal_none (fun r hr => h1 r (hp.mem_iff.mpr hr))]

theorem findPeel_some {peel : Bytes → Bytes → Option (Option Bytes)} {r r' : PackRef} (h : findPeel peel r = some r') :
    r'.name = r.name ∧ r'.oid = r.oid ∧ (r'.peel = r.peel ∨ peel r.name r.oid = some r'.peel) := by
  unfold findPeel at h
  split at h
  · cases h; exact ⟨rfl, rfl, .inl rfl⟩
  · split at h
    · cases h
    · rename_i hp; cases h; exact ⟨rfl, rfl, .inr hp⟩

/-- the entries with their peeled ids -/
inductive peeled (peel : Bytes → Bytes → Option (Option Bytes)) : List Ent → List PackRef → Prop
  | nil : peeled peel [] []
  | cons {r r' c c'} (h : findPeel peel r.1 = some r') (t : peeled peel c c') : peeled peel (r :: c) (r' :: c')

theorem peeled_map {peel : Bytes → Bytes → Option (Option Bytes)} {c : List Ent} {c' : List PackRef} (h : peeled peel c c') :
    c'.map (fun r => (r.name, r.oid)) = c.map (fun r => (r.1.name, r.1.oid)) := by
  induction h with
  | nil => rfl
  | cons h _ ih => obtain ⟨h1, h2, _⟩ := findPeel_some h; simp [ih, h1, h2]

/-- the file that is written for the cache: well formed, and it answers as the cache does -/
theorem written_ok {size : Nat} (hs : 0 < size) {c : List Ent} (hc : CacheOk size c) {peel : Bytes → Bytes → Option (Option Bytes)}
    (hpeel : ∀ n x p, peel n x = some (some p) → p.length = size) {c' : List PackRef} (h : peeled peel (sortCache c) c') :
    ∃ b, packedContent size c' = .ok b ∧ ∀ n, packedVal size (some b) n = cacheVal c n := by
  have hmap := peeled_map h
  have hsort := sortCache_sorted hc
  have hent : ∀ r ∈ sortCache c, EntOk size r := fun r hr => hc.ent r ((sortCache_perm c).mem_iff.mp hr)
  have hw : Writable size c' := by
    have hall : ∀ r' ∈ c', ∃ r ∈ sortCache c, findPeel peel r.1 = some r' := by
      clear hmap hsort hent
      generalize sortCache c = d at h
      induction h with
      | nil => intro r hr; cases hr
      | cons h _ ih =>
        intro r hr
        rcases List.mem_cons.mp hr with rfl | hr
        · exact ⟨_, by simp, h⟩
        · obtain ⟨x, hx, e⟩ := ih r hr
          exact ⟨x, by simp [hx], e⟩
    refine ⟨?_, ?_, ?_, ?_⟩
    · intro r' hr'
      obtain ⟨r, hr, e⟩ := hall r' hr'
      rw [(findPeel_some e).2.1]; exact (hent r hr).oid
    · intro r' hr' p hp
      obtain ⟨r, hr, e⟩ := hall r' hr'
      rcases (findPeel_some e).2.2 with h | h
      · rw [h] at hp; exact (hent r hr).peel p hp
      · rw [hp] at h; exact hpeel _ _ _ h
    · intro r' hr'
      obtain ⟨r, hr, e⟩ := hall r' hr'
      rw [(findPeel_some e).1]; exact ⟨(hent r hr).ne, (hent r hr).nl⟩
    · have h1 : (c'.map (fun r => (r.name, r.oid))).Pairwise (fun a b => a.1 < b.1) := by
        rw [hmap, List.pairwise_map]; exact hsort
      rw [List.pairwise_map] at h1; exact h1
  obtain ⟨b, hb, _⟩ := C20_write_lookup hs c' hw [] false
  refine ⟨b, hb, fun n => ?_⟩
  obtain ⟨b', hb', h1, h2⟩ := C20_write_lookup hs c' hw n false
  rw [hb] at hb'; cases hb'
  have hdist : (sortCache c).Pairwise (fun a b => a.1.name ≠ b.1.name) := hsort.imp (fun h => B.ne_of_lt h)
  rw [← cacheVal_perm (sortCache_perm c) hc.distinct n]
  unfold packedVal
  rcases cacheVal_cases hdist n with ⟨r, hr, hn, hv⟩ | ⟨hn, hv⟩
  · have : (n, r.1.oid) ∈ c'.map (fun r => (r.name, r.oid)) := by rw [hmap, ← hn]; exact List.mem_map.mpr ⟨r, hr, rfl⟩
    obtain ⟨r', hr', e⟩ := List.mem_map.mp this
    simp only [Prod.mk.injEq] at e
    have := (h1 r'.oid r'.peel).mpr (by rw [← e.1]; exact hr')
    rw [hv]
    simp only [this, e.2]
  · have : ∀ r' ∈ c', r'.name ≠ n := by
      intro r' hr' e
      have : (r'.name, r'.oid) ∈ (sortCache c).map (fun r => (r.1.name, r.1.oid)) := by rw [← hmap]; exact List.mem_map.mpr ⟨r', hr', rfl⟩
      obtain ⟨r, hr, e2⟩ := List.mem_map.mp this
      simp only [Prod.mk.injEq] at e2
      exact hn r hr (by rw [e2.1, e])
    rw [hv]
    simp only [h2.mpr this]

/-- removing a name from the cache -/
theorem filter_ok {size : Nat} {c : List Ent} (h : CacheOk size c) (n : Path) :
    CacheOk size (c.filter (fun r => !(decide (r.1.name = n)))) ∧ cacheVal (c.filter (fun r => !(decide (r.1.name = n)))) n = .err ENOTFOUND ∧
    ∀ m, m ≠ n → cacheVal (c.filter (fun r => !(decide (r.1.name = n)))) m = cacheVal c m := by
  have hd : (c.filter (fun r => !(decide (r.1.name = n)))).Pairwise (fun a b => a.1.name ≠ b.1.name) := h.distinct.sublist List.filter_sublist
  refine ⟨⟨fun r hr => h.ent r (List.mem_filter.mp hr).1, hd⟩, cacheVal_none ?_, ?_⟩
  · intro r hr; simpa using (List.mem_filter.mp hr).2
  · intro m hm
    rcases cacheVal_cases h.distinct m with ⟨r, hr, rfl, e⟩ | ⟨h1, e⟩
    · rw [e]
      exact cacheVal_mem hd r (List.mem_filter.mpr ⟨hr, by simpa using hm⟩)
    · rw [e]
      exact cacheVal_none (fun r hr => h1 r (List.mem_filter.mp hr).1)

end Verif.RefDb
