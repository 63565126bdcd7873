import Verif.Notes.Spec
import Verif.IndexTree.Lemmas4
import Verif.IndexTree.Lemmas9
/-! # Writing one directory of notes; finding a place in one -/
namespace Verif.Notes
open Spec IndexTree
open IndexTree.Spec (Collisionless NotNull)

/-- an entry as it can be in a tree -/
def EntOk (e : Tree.Entry) : Prop := e.attr < 65536 ∧ Tree.Spec.Name e.name ∧ c!"/" ∉ e.name ∧ e.oid.length = 20

theorem EntOk.plain {e : Tree.Entry} (h : EntOk e) : Tree.Plain e := ⟨h.1, h.2.2.1, h.2.1.2.1, h.2.1.2.2⟩

theorem ofSource_spec (es : List Tree.Entry) : ∀ (c : Tree.Spec.Contents), (es.map (·.name)).Nodup → (∀ e ∈ es, c e.name = none) → ∀ n m i,
    Tree.ofSource c es n = some (m, i) ↔ c n = some (m, i) ∨ (⟨m, n, i⟩ : Tree.Entry) ∈ es := by
  induction es with
  | nil => intro c _ _ n m i; simp [Tree.ofSource]
  | cons e es ih =>
    intro c hn hc n m i
    simp only [List.map_cons, List.nodup_cons, List.mem_map, not_exists, not_and] at hn
    have := ih (fun n => if n = e.name then some (e.attr, e.oid) else c n) hn.2 (fun x hx => by
      rw [if_neg (fun h => hn.1 x hx h)]
      exact hc x (by simp [hx])) n m i
    unfold Tree.ofSource at this ⊢
    rw [List.foldl_cons, this]
    by_cases h : n = e.name
    · subst h
      have hcn := hc e (by simp)
      simp only [List.mem_cons, hcn, reduceCtorEq, false_or]
      rw [if_pos trivial]
      constructor
      · rintro (h | h)
        · cases h; exact Or.inl rfl
        · exact Or.inr h
      · rintro (h | h)
        · left; cases e; cases h; rfl
        · exact Or.inr h
    · simp only [if_neg h, List.mem_cons]
      constructor
      · rintro (h' | h')
        · exact Or.inl h'
        · exact Or.inr (Or.inr h')
      · rintro (h' | h' | h')
        · exact Or.inl h'
        · exact absurd (by rw [← h']) h
        · exact Or.inr h'

/-- the contents after the edit -/
def after (c : Tree.Spec.Contents) (name : Bytes) (val : Option (Nat × Bytes)) : Tree.Spec.Contents := fun n => if n = name then val else c n

theorem treeEdit_spec {env : Tree.Env} {tb : Tree.Bld} {c : Tree.Spec.Contents} (hr : Tree.BRel env tb c) (hs : tb.size < 2 ^ 30) {name : Bytes} {val : Option (Nat × Bytes)}
    (hval : ∀ m i, val = some (m, i) → Tree.checkEntry env name i m = true ∧ m < 65536) (hrem : val = none → c name ≠ none) :
    ∃ tb', treeEdit env tb name val = .ok tb' ∧ Tree.BRel env tb' (after c name val) ∧ tb'.size ≤ tb.size + 1 := by
  cases val with
  | some v =>
    obtain ⟨m, i⟩ := v
    obtain ⟨h1, h2⟩ := hval m i rfl
    obtain ⟨tb', e1, r1⟩ := Tree.insert_ok hr hs name i m h1 h2
    obtain ⟨tb2, e2, r2, z2⟩ := Tree.edit_ok hr hs (.insert name i m)
    simp only [Tree.editM, e1] at e2
    cases e2
    exact ⟨tb', e1, r1, z2⟩
  | none =>
    rcases Tree.remove_ok hr name with ⟨h, _⟩ | ⟨tb', e1, r1, z1⟩
    · exact absurd h (hrem rfl)
    · exact ⟨tb', e1, r1, by omega⟩

theorem treeWrite_grows {env : Env} {odb odb' : Odb} {es : List Tree.Entry} {name : Bytes} {val : Option (Nat × Bytes)} {r : Res (Bytes × List Tree.Entry)}
    (h : treeWrite env odb es name val = (odb', r)) : ∃ ext, odb' = odb ++ ext := by
  unfold treeWrite at h
  split at h
  · cases h; exact ⟨[], by simp⟩
  · cases h; exact ⟨[], by simp⟩
  · split at h
    · cases h; exact ⟨[], by simp⟩
    · cases h; exact ⟨[], by simp⟩
    · split at h
      · cases h; exact ⟨[], by simp⟩
      · cases h; exact ⟨[], by simp⟩
      · cases h; exact ⟨_, rfl⟩

/-- what a written directory is -/
structure Written (odb odb' : Odb) (es : List Tree.Entry) (name : Bytes) (val : Option (Nat × Bytes)) (id : Bytes) (es' : List Tree.Entry) : Prop where
  grows : ∃ ext, odb' = odb ++ ext
  look : lookupTree odb' id = .ok es'
  idLen : id.length = 20
  notNull : NotNull id
  mem : ∀ e, e ∈ es' ↔ (e.name ≠ name ∧ e ∈ es) ∨ (e.name = name ∧ val = some (e.attr, e.oid))
  sorted : es'.Pairwise (fun a b => Tree.Spec.gitKey a.attr a.name < Tree.Spec.gitKey b.attr b.name)
  nodup : (es'.map (·.name)).Nodup
  size : es'.length ≤ es.length + 1
  ent : ∀ e ∈ es', EntOk e

theorem treeWrite_spec {env : Env} (hid : ∀ b, (env.idOf b).length = 20 ∧ ∃ c ∈ env.idOf b, c ≠ 0) {odb odb' : Odb} {es : List Tree.Entry} {name : Bytes} {val : Option (Nat × Bytes)}
    {r : Res (Bytes × List Tree.Entry)} (hent : ∀ e ∈ es, EntOk e) (hnd : (es.map (·.name)).Nodup) (hsz : es.length < 2 ^ 30)
    (hval : ∀ m i, val = some (m, i) → Tree.checkEntry (treeEnv env odb) name i m = true ∧ EntOk ⟨m, name, i⟩) (hrem : val = none → ∃ e ∈ es, e.name = name)
    (h : treeWrite env odb es name val = (odb', r)) (hc : Collisionless odb') : ∃ id es', r = .ok (id, es') ∧ Written odb odb' es name val id es' := by
  obtain ⟨tb, e1, r1, z1⟩ := Tree.new_ok es HashMap.init (fun _ => none) (brel_init (env := env) (odb := odb)) (by simpa [HashMap.init] using hsz)
  have z1' : tb.size ≤ es.length := by simpa [HashMap.init] using z1
  have hos := ofSource_spec es (fun _ => none) hnd (fun _ _ => rfl)
  obtain ⟨tb2, e2, r2, z2⟩ := treeEdit_spec (name := name) (val := val) r1 (by omega) (fun m i hv => ⟨(hval m i hv).1, (hval m i hv).2.1⟩) (fun hv => by
    obtain ⟨e, he, hn⟩ := hrem hv
    rw [(hos name e.attr e.oid).mpr (Or.inr (by subst hn; exact he))]
    simp)
  have hcon : ∀ n m i, after (Tree.ofSource (fun _ => none) es) name val n = some (m, i) ↔ (n ≠ name ∧ (⟨m, n, i⟩ : Tree.Entry) ∈ es) ∨ (n = name ∧ val = some (m, i)) := by
    intro n m i
    unfold after
    by_cases hn : n = name
    · simp [hn]
    · simp [hn, hos]
  have hok : ∀ n m i, after (Tree.ofSource (fun _ => none) es) name val n = some (m, i) → EntOk ⟨m, n, i⟩ := by
    intro n m i hh
    rcases (hcon n m i).mp hh with ⟨_, hm⟩ | ⟨rfl, hm⟩
    · exact hent _ hm
    · exact (hval m i hm).2
  have hpl : ∀ n m i, after (Tree.ofSource (fun _ => none) es) name val n = some (m, i) → Tree.Plain ⟨m, n, i⟩ := fun n m i hh => (hok n m i hh).plain
  obtain ⟨bytes, hw⟩ := Tree.write_small r2 hpl (by omega)
  have hcan := Tree.write_ok r2 hpl hw
  obtain ⟨es', hp, hmem, hsort⟩ := canonical_parse hcan (fun n m i hh => ⟨(hok n m i hh).1, (hok n m i hh).2.1, (hok n m i hh).2.2.2⟩)
  unfold treeWrite at h
  rw [e1] at h
  simp only [e2, hw, writeObj] at h
  cases h
  have hl : lookupTree (odb ++ [(env.idOf bytes, bytes)]) (env.idOf bytes) = .ok es' := by
    unfold lookupTree; rw [readObj_snoc hc]; exact hp
  have hmem' : ∀ e, e ∈ es' ↔ (e.name ≠ name ∧ e ∈ es) ∨ (e.name = name ∧ val = some (e.attr, e.oid)) := by
    intro e
    rw [hmem, hcon]
  have hnd' : (es'.map (·.name)).Nodup := by
    unfold List.Nodup
    rw [List.pairwise_map]
    refine List.Pairwise.imp_of_mem ?_ hsort
    intro a b ha hb hlt hn
    have h1 := (hmem a).mp ha
    have h2 := (hmem b).mp hb
    rw [hn, h2] at h1
    simp only [Option.some.injEq, Prod.mk.injEq] at h1
    rw [hn, ← h1.1] at hlt
    exact absurd hlt (List.lt_irrefl _)
  refine ⟨env.idOf bytes, es', by rw [hl], ⟨_, rfl⟩, hl, (hid bytes).1, (hid bytes).2, hmem', hsort, hnd', ?_, ?_⟩
  · have : (es'.map (·.name)).length ≤ (name :: es.map (·.name)).length := by
      apply List.Nodup.length_le_of_subset hnd'
      intro n hn
      obtain ⟨e, he, rfl⟩ := List.mem_map.mp hn
      rcases (hmem' e).mp he with ⟨_, h⟩ | ⟨h, _⟩
      · exact List.mem_cons_of_mem _ (List.mem_map.mpr ⟨e, h, rfl⟩)
      · rw [h]; simp
    simpa using this
  · intro e he
    exact hok e.name e.attr e.oid ((hmem e).mp he)

/-! ## Finding a place -/

theorem ishex_iff {s : Bytes} : ishex s = true ↔ ∀ c ∈ s, AnyDigit c := by
  unfold ishex AnyDigit
  rw [List.all_eq_true]
  have : ∀ c : UInt8, decide (0 ≤ Oid.fromhex c) = true ↔ (Oid.Spec.hexVal c).isSome = true := by decide +kernel
  constructor
  · intro h c hc; exact (this c).mp (h c hc)
  · intro h c hc; exact (this c).mpr (h c hc)

theorem digit_any : ∀ c : UInt8, Digit c → AnyDigit c := by
  unfold Digit AnyDigit
  decide +kernel

theorem findLevel_sub {odb : Odb} {t : Bytes} {e : Tree.Entry} (ht : e.isTree = true) (hl : e.name.length = 2) (hn : e.name = t.take 2) (hh : ishex e.name = true) :
    ∀ {es : List Tree.Entry}, (es.map (·.name)).Nodup → (∀ x ∈ es, x.name ≠ t) → e ∈ es → findLevel odb t es = lookupTree odb e.oid := by
  intro es
  induction es with
  | nil => intro _ _ h; cases h
  | cons x es ih =>
    intro hnd hno he
    simp only [List.map_cons, List.nodup_cons, List.mem_map, not_exists, not_and] at hnd
    unfold findLevel
    rcases List.mem_cons.mp he with rfl | he
    · rw [if_neg (by simp [hh]), if_pos ⟨ht, hl, hn⟩]
    · have hxe : x.name ≠ e.name := fun h => hnd.1 e he h.symm
      have := ih hnd.2 (fun y hy => hno y (by simp [hy])) he
      by_cases hx : ishex x.name = true
      · rw [if_neg (by simp [hx]), if_neg (by rintro ⟨_, _, h⟩; exact hxe (h.trans hn.symm)), if_neg (hno x (by simp)), this]
      · rw [if_pos (by simpa using hx), this]

theorem findLevel_there {odb : Odb} {t : Bytes} (hh : ishex t = true) : ∀ {es : List Tree.Entry}, (∀ e ∈ es, ishex e.name = true → e.isTree = true → e.name.length = 2 → e.name ≠ t.take 2) →
    (∃ e ∈ es, e.name = t) → findLevel odb t es = .err EEXISTS := by
  intro es
  induction es with
  | nil => rintro _ ⟨e, h, _⟩; cases h
  | cons x es ih =>
    intro hno he
    unfold findLevel
    have := fun h => ih (fun y hy => hno y (by simp [hy])) h
    by_cases hx : ishex x.name = true
    · rw [if_neg (by simp [hx]), if_neg (by rintro ⟨h1, h2, h3⟩; exact hno x (by simp) hx h1 h2 h3)]
      by_cases hxt : x.name = t
      · rw [if_pos hxt]
      · rw [if_neg hxt]
        apply this
        obtain ⟨e, h1, h2⟩ := he
        rcases List.mem_cons.mp h1 with rfl | h1
        · exact absurd h2 hxt
        · exact ⟨e, h1, h2⟩
    · rw [if_pos (by simpa using hx)]
      apply this
      obtain ⟨e, h1, h2⟩ := he
      rcases List.mem_cons.mp h1 with rfl | h1
      · rw [h2] at hx; exact absurd hh hx
      · exact ⟨e, h1, h2⟩

theorem findLevel_absent {odb : Odb} {t : Bytes} : ∀ {es : List Tree.Entry}, (∀ e ∈ es, ishex e.name = true → e.isTree = true → e.name.length = 2 → e.name ≠ t.take 2) →
    (∀ e ∈ es, e.name ≠ t) → findLevel odb t es = .err ENOTFOUND := by
  intro es
  induction es with
  | nil => intro _ _; rfl
  | cons x es ih =>
    intro hno he
    have := ih (fun y hy => hno y (by simp [hy])) (fun y hy => he y (by simp [hy]))
    unfold findLevel
    by_cases hx : ishex x.name = true
    · rw [if_neg (by simp [hx]), if_neg (by rintro ⟨h1, h2, h3⟩; exact hno x (by simp) hx h1 h2 h3), if_neg (he x (by simp)), this]
    · rw [if_pos (by simpa using hx), this]

end Verif.Notes
