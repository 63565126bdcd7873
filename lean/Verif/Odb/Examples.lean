import Verif.Odb.Props
/-! # A database with loose objects and a pack that has not been seen yet: the hypotheses of C67, C68 and C69 hold of it -/
namespace Verif.Odb.Examples
open Spec
open PackIdx.Spec (SamePrefix Padded)

/-- ids of three bytes; a blob of one byte `c` has the id 1230cc -/
def cfg : Cfg := ⟨3, fun o => match o.data with
  | c :: _ => [0x12, 0x30, c]
  | [] => [0x4b, 0x82, 0x5d], true, [0x4b, 0x82, 0x5d]⟩
def P (o : Obj) : Prop := o = ⟨2, []⟩ ∨ ∃ c, o = ⟨3, [c]⟩

/-- a search among one entry -/
def one {α : Type} (i : Bytes) (x : α) (key : Bytes) (len : Nat) : Res (α × Bytes) := if SamePrefix len key i then .ok (x, i) else .err (-3)
/-- the pack with one blob, whatever its name -/
def pk (stem : Bytes) : Pk := ⟨stem ++ b!".pack", 0, one [0x12, 0x30, 0x35] 12, fun off => if off = 12 then .ok ⟨3, [0x35]⟩ else .err (-1)⟩
def midx : MidxF := ⟨b!"m", [b!"pack-1.idx"], one [0x12, 0x30, 0x35] (0, 12)⟩
def pack : PackB := ⟨3, true, ⟨true, [b!"pack-1.pack", b!"pack-1.idx", b!"multi-pack-index"], fun n => if n = b!"pack-1.idx" then .ok (pk b!"pack-1") else .err (-3), some midx⟩, [], none, [], none⟩
def loose : LooseB := ⟨3, [⟨b!"12", b!"3034", false, .ok ⟨3, [0x34]⟩⟩, ⟨b!"pa", b!"ck", true, .err (-1)⟩], false⟩
def db : Db Back := ⟨[⟨.loose loose, false⟩, ⟨.pack pack, false⟩], []⟩

theorem world : World cfg P where
  inj a b ha hb h := by
    rcases ha with rfl | ⟨c, rfl⟩ <;> rcases hb with rfl | ⟨d, rfl⟩ <;> simp [cfg] at h ⊢
    exact h
  len a ha := by rcases ha with rfl | ⟨c, rfl⟩ <;> rfl
  nonzero a ha := by
    rcases ha with rfl | ⟨c, rfl⟩
    · exact ⟨0x4b, by decide, by decide⟩
    · exact ⟨0x12, by simp [cfg], by decide⟩
  empty := ⟨.inl rfl, rfl⟩

theorem one_looked {α : Type} (i : Bytes) (x : α) (key : Bytes) (len : Nat) : PackIdx.Spec.Looked [(i, x)] key len (one i x key len) := by
  unfold one
  split
  · rename_i h
    exact .one i x (by simp) h (fun e he _ => by simpa using he)
  · rename_i h
    exact .none fun e he => by simp at he; rw [he]; exact h

theorem pk_right (stem : Bytes) : PackRight 3 (pk stem) := by
  refine ⟨[([0x12, 0x30, 0x35], 12)], fun key len _ _ => one_looked _ _ key len, fun e he => ?_⟩
  simp only [List.mem_singleton] at he
  subst he
  exact ⟨rfl, ⟨3, [0x35]⟩, rfl⟩

theorem pk_obj (stem id : Bytes) : pkObj 3 (pk stem) id = if id = [0x12, 0x30, 0x35] then some ⟨3, [0x35]⟩ else none := by
  unfold pkObj
  by_cases h : id = [0x12, 0x30, 0x35]
  · subst h
    rw [if_pos rfl]
    rfl
  · rw [if_neg h]
    split
    · rename_i hl
      have : (pk stem).find id (2 * 3) = .err (-3) := by
        show one _ _ id (2 * 3) = _
        unfold one
        rw [if_neg fun hs => h ((PackIdx.samePrefix_full (by rw [hl]; rfl) (by decide)).mp hs)]
      rw [this]
    · rfl

theorem disk_eq : diskPacks pack = [pk b!"pack-1"] := by rfl
theorem stem_eq {n stem : Bytes} (h : stemOf n = some stem) (hn : n ∈ pack.disk.listing ∨ ∃ m, pack.disk.midx = some m ∧ n ∈ m.names) : stem = b!"pack-1" := by
  have : n = b!"pack-1.pack" ∨ n = b!"pack-1.idx" ∨ n = b!"multi-pack-index" := by
    rcases hn with hn | ⟨m, hm, hn⟩
    · simpa [pack] using hn
    · simp only [pack, Option.some.injEq] at hm
      subst hm
      exact .inr (.inl (by simpa [midx] using hn))
  rcases this with rfl | rfl | rfl
  · revert h; decide +kernel +revert
  · have : stemOf b!"pack-1.idx" = some b!"pack-1" := by decide +kernel
    rw [this] at h
    injection h with h
    exact h.symm
  · revert h; decide +kernel +revert

theorem midx_right : MidxRight 3 pk midx := by
  refine ⟨[([0x12, 0x30, 0x35], (0, 12))], fun key len _ _ => one_looked _ _ key len, fun e he => ?_, fun n hn => ?_⟩
  · simp only [List.mem_singleton] at he
    subst he
    exact ⟨rfl, b!"pack-1.idx", b!"pack-1", ⟨3, [0x35]⟩, rfl, by decide +kernel, rfl, by rw [pk_obj, if_pos rfl]⟩
  · simp only [midx, List.mem_singleton] at hn
    subst hn
    refine ⟨b!"pack-1", by decide +kernel, fun id o h => ?_⟩
    rw [pk_obj] at h
    split at h
    · rename_i e
      exact ⟨_, List.mem_singleton.mpr rfl, e.symm⟩
    · cases h

theorem pack_good : PackGood 3 pk pack where
  size := rfl
  right p hp := by
    rw [disk_eq] at hp
    simp only [openPacks, pack, List.nil_append, List.mem_singleton] at hp
    subst hp
    exact pk_right _
  agree p hp q hq id x y h1 h2 := by
    rw [disk_eq] at hp hq
    simp only [openPacks, pack, List.nil_append, List.mem_singleton] at hp hq
    subst hp
    subst hq
    rw [h1] at h2
    injection h2
  known p hp := by simp [openPacks, pack] at hp
  opens n p h := by
    simp only [pack] at h
    split at h
    · rename_i e
      subst e
      injection h with h
      exact ⟨b!"pack-1", by decide +kernel, h.symm⟩
    · cases h
  named _ := rfl
  apart n stem h hn p hp _ := by
    rw [disk_eq] at hp
    simp only [openPacks, pack, List.nil_append, List.mem_singleton] at hp
    rw [hp, stem_eq h hn]
  midx m h := by cases h
  nomidx _ := rfl
  last p h := by cases h
  dir _ := rfl
  listing n hn := by
    by_cases h : n = b!"pack-1.idx"
    · exact .inl ⟨pk b!"pack-1", by simp [pack, h]⟩
    · exact .inr (.inl (by simp [pack, h]))
  diskMidx m h := by
    simp only [pack, Option.some.injEq] at h
    subst h
    refine ⟨midx_right, fun n hn p _ => ?_⟩
    simp only [midx, List.mem_singleton] at hn
    subst hn
    simp [pack]

theorem loose_good : LooseGood 3 loose where
  size := rfl
  files f hf := by
    simp only [loose, List.mem_cons, List.not_mem_nil, or_false] at hf
    rcases hf with rfl | rfl
    · exact ⟨rfl, fun _ => ⟨rfl, [0x12, 0x30, 0x34], ⟨3, [0x34]⟩, rfl, by decide +kernel, rfl, rfl⟩⟩
    · exact ⟨rfl, fun h => (by cases h)⟩
  once := by simp [loose]

theorem hex_inj {a b : Bytes} (h : Oid.Spec.hex a = Oid.Spec.hex b) (hl : a.length = b.length) : a = b :=
  (PackIdx.samePrefix_full (len := 2 * b.length) hl (Nat.le_refl _)).mp (by unfold SamePrefix; rw [h])

theorem sound : Sound cfg P (fun s => BackGood cfg.osz pk s ∧ Writable s) (backAfter cfg.osz) db where
  good s hs := by
    simp only [db, List.mem_cons, List.not_mem_nil, or_false] at hs
    rcases hs with rfl | rfl
    · exact ⟨loose_good, rfl⟩
    · exact ⟨pack_good, trivial⟩
  objs s hs id o h := by
    simp only [db, List.mem_cons, List.not_mem_nil, or_false] at hs
    rcases hs with rfl | rfl
    · have h : looseObjs loose id = some o := h
      have hl := looseObjs_len loose_good h
      obtain ⟨f, hf, h1, h2, h3⟩ := (looseObjs_iff loose_good hl).mp h
      simp only [loose, List.mem_cons, List.not_mem_nil, or_false] at hf
      rcases hf with rfl | rfl
      · injection h3 with h3
        subst h3
        exact ⟨.inr ⟨_, rfl⟩, (hex_inj (b := [0x12, 0x30, 0x34]) (h1.symm.trans (by decide +kernel)) hl).symm⟩
      · cases h3
    · have h : firstObj 3 (openPacks pack ++ diskPacks pack) id = some o := h
      obtain ⟨p, hp, h⟩ := (firstObj_iff pack_good.agree).mp h
      rw [disk_eq] at hp
      simp only [openPacks, pack, List.nil_append, List.mem_singleton] at hp
      subst hp
      rw [pk_obj] at h
      split at h
      · rename_i e
        injection h with h
        rw [e, ← h]
        exact ⟨.inr ⟨_, rfl⟩, rfl⟩
      · cases h
  cache x hx := by cases hx

/-- the hypotheses of C67 and C68: the backends, objects, and the state -/
example : Honest backOps cfg.osz (fun s => BackGood cfg.osz pk s ∧ Writable s) (backSees cfg.osz) (backAfter cfg.osz) (fun id _ => id.length = cfg.osz) := backHonest_rw (by decide)
example : ∀ o, P o → (cfg.idOf o).length = cfg.osz := world.len

/-- the loose object, the packed object (the pack has not been seen), the empty tree, and none -/
example : (read cfg backOps db [0x12, 0x30, 0x34]).2 = .ok ⟨3, [0x34]⟩ := by decide +kernel
example : (read cfg backOps db [0x12, 0x30, 0x35]).2 = .ok ⟨3, [0x35]⟩ := by decide +kernel
example : (read cfg backOps db [0x4b, 0x82, 0x5d]).2 = .ok ⟨2, []⟩ := by decide +kernel
example : (read cfg backOps db [0x12, 0x30, 0x36]).2 = .err (-3) := by decide +kernel
/-- the empty tree is not there before it has been read -/
example : (exists' backOps db [0x4b, 0x82, 0x5d]).2 = false ∧ (exists' backOps (read cfg backOps db [0x4b, 0x82, 0x5d]).1 [0x4b, 0x82, 0x5d]).2 = true := by decide +kernel
/-- an object is written, and both it and the one in the pack are there -/
example : (write cfg backOps db ⟨3, [0x36]⟩).2 = .ok [0x12, 0x30, 0x36] ∧ (read cfg backOps (write cfg backOps db ⟨3, [0x36]⟩).1 [0x12, 0x30, 0x36]).2 = .ok ⟨3, [0x36]⟩ ∧
    (exists' backOps (write cfg backOps db ⟨3, [0x36]⟩).1 [0x12, 0x30, 0x35]).2 = true := by decide +kernel
/-- an abbreviation: only the loose object is seen at first, afterwards it is ambiguous -/
example : (readPrefix cfg backOps db [0x12, 0x30, 0x30] 5).2 = .ok ([0x12, 0x30, 0x34], ⟨3, [0x34]⟩) := by decide +kernel
example : (readPrefix cfg backOps (refresh backOps db).1 [0x12, 0x30, 0x30] 5).2 = .err (-5) := by decide +kernel
example : (existsPrefix cfg backOps db [0x12, 0x30, 0x35] 6).2 = .ok [0x12, 0x30, 0x35] ∧ (existsPrefix cfg backOps db [0x12, 0x40, 0x00] 4).2 = .err (-3) := by decide +kernel
/-- refreshing opens the pack, as one of the multi-pack-index -/
example : (packRefresh pack).1.midxPacks.length = 1 ∧ (packRefresh pack).1.packs.length = 0 := by decide +kernel

end Verif.Odb.Examples
