import Verif.IndexTree.Lemmas8
/-! # There is only one tidy tree with given files -/
namespace Verif.IndexTree
open Spec
open TreeDiff.Spec (At Good Has)

/-- what a tidy tree is -/
structure View (odb : Odb) (id bytes : Bytes) (c : Tree.Spec.Contents) (es : List Tree.Entry) : Prop where
  read : readObj odb id = some bytes
  canon : Tree.Spec.Canonical c bytes
  wf : ∀ n m i, c n = some (m, i) → m < 65536 ∧ Tree.Spec.Name n ∧ i.length = 20
  full : ∀ n m i, c n = some (m, i) → m = 0o040000 → readObj odb i ≠ some []
  mode : ∀ n m i, c n = some (m, i) → m / 4096 = 4 → m = 0o040000
  lookup : lookupTree odb id = .ok es
  mem : ∀ e : Tree.Entry, e ∈ es ↔ c e.name = some (e.attr, e.oid)

theorem view_mk {odb : Odb} {id bytes : Bytes} {c : Tree.Spec.Contents} (h1 : readObj odb id = some bytes) (h2 : Tree.Spec.Canonical c bytes)
    (h3 : ∀ n m i, c n = some (m, i) → m < 65536 ∧ Tree.Spec.Name n ∧ i.length = 20) (h4 : ∀ n m i, c n = some (m, i) → m = 0o040000 → readObj odb i ≠ some [])
    (h5 : ∀ n m i, c n = some (m, i) → m / 4096 = 4 → m = 0o040000) : ∃ es, View odb id bytes c es := by
  obtain ⟨es, hp, hmem, -⟩ := canonical_parse h2 h3
  exact ⟨es, h1, h2, h3, h4, h5, by unfold lookupTree; rw [h1]; exact hp, hmem⟩

theorem View.attr {odb : Odb} {id bytes : Bytes} {c : Tree.Spec.Contents} {es : List Tree.Entry} (v : View odb id bytes c es) : ∀ e ∈ es, e.attr < 65536 :=
  fun e he => (v.wf _ _ _ ((v.mem e).mp he)).1

theorem View.isTree {odb : Odb} {id bytes : Bytes} {c : Tree.Spec.Contents} {es : List Tree.Entry} (v : View odb id bytes c es) {e : Tree.Entry} (he : e ∈ es) :
    (conv e).isTree = true ↔ e.attr = 0o040000 := by
  have ha := v.attr e he
  rw [conv_isTree ha, Tree.isTree_iff e ha, decide_eq_true_eq]
  exact ⟨fun h => v.mode _ _ _ ((v.mem e).mp he) h, fun h => by rw [h]⟩

theorem tidy_file {odb : Odb} {id : Bytes} (h : Tidy odb id) : readObj odb id ≠ some [] → ∃ es p m i, trees odb id = some es ∧ Has (trees odb) (some es) p m i := by
  induction h with
  | @mk id bytes c h1 h2 hw h3 h4 h5 ih =>
    intro hne
    obtain ⟨es, v⟩ := view_mk h1 h2 hw h3 h4
    have htr := trees_of_lookup v.lookup
    cases hes : es with
    | nil =>
      exfalso
      apply hne
      have : Tree.Spec.Canonical c [] := by
        refine ⟨[], ?_, .nil, fun m => Tree.octal m, fun m => ⟨Tree.octal_spells m, Tree.octal_ne_nil m, Tree.octal_head m⟩, rfl⟩
        intro m n i
        have := v.mem ⟨m, n, i⟩
        rw [hes] at this
        simpa using this
      rw [h1, Tree.canonical_unique h2 this]
    | cons e es' =>
      have he : e ∈ es := by rw [hes]; simp
      by_cases ht : (conv e).isTree = true
      · have hm := (v.isTree he).mp ht
        have hc := (v.mem e).mp he
        obtain ⟨sub, p, m, i, g1, g2⟩ := ih _ _ _ hc hm (h3 _ _ _ hc hm)
        obtain ⟨es2, x, he2, hat, hf, hm2, hi2⟩ := g2
        cases he2
        exact ⟨_, (conv e).name ++ b!"/" ++ p, m, i, htr, _, x, rfl, .inside (List.mem_map.mpr ⟨e, he, rfl⟩) ht g1 hat, hf, hm2, hi2⟩
      · refine ⟨_, TreeDiff.Spec.key (conv e), e.attr, e.oid, htr, _, conv e, rfl, .here (List.mem_map.mpr ⟨e, he, rfl⟩), ?_, rfl, rfl⟩
        simpa using ht

/-- the part of a tree that two trees with the same files share: files -/
theorem same_file {odb1 odb2 : Odb} {id1 id2 b1 b2 : Bytes} {c1 c2 : Tree.Spec.Contents} {es1 es2 : List Tree.Entry} (v1 : View odb1 id1 b1 c1 es1) (v2 : View odb2 id2 b2 c2 es2)
    (g1 : Good (trees odb1) (es1.map conv))
    (hf : ∀ p m i, Has (trees odb1) (some (es1.map conv)) p m i → Has (trees odb2) (some (es2.map conv)) p m i) {n : Bytes} {m : Nat} {i : Bytes}
    (hc : c1 n = some (m, i)) (hm : m ≠ 0o040000) : c2 n = some (m, i) := by
  have he : (⟨m, n, i⟩ : Tree.Entry) ∈ es1 := (v1.mem _).mpr hc
  have hcan : TreeDiff.Spec.Canonical (es1.map conv) := by cases g1; assumption
  have hns : c!"/" ∉ n := (hcan.1 _ (List.mem_map.mpr ⟨_, he, rfl⟩)).2.1
  have hnt : (conv ⟨m, n, i⟩).isTree = false := by
    rw [← Bool.not_eq_true, v1.isTree he]; exact hm
  have hk : TreeDiff.Spec.key (conv ⟨m, n, i⟩) = n := by unfold TreeDiff.Spec.key; rw [hnt]; rfl
  have hat0 : At (trees odb1) (es1.map conv) n (conv ⟨m, n, i⟩) := by
    have := At.here (store := trees odb1) (es := es1.map conv) (e := conv ⟨m, n, i⟩) (List.mem_map.mpr ⟨_, he, rfl⟩)
    rw [hk] at this
    exact this
  obtain ⟨es', x, hes, hat, hxf, rfl, rfl⟩ := hf n m i ⟨_, conv ⟨m, n, i⟩, rfl, hat0, hnt, rfl, rfl⟩
  cases hes
  generalize hn' : n = n' at hat
  cases hat with
  | here h =>
    obtain ⟨t, ht, rfl⟩ := List.mem_map.mp h
    have : TreeDiff.Spec.key (conv t) = t.name := by unfold TreeDiff.Spec.key; rw [hxf]; rfl
    rw [this]
    exact (v2.mem t).mp ht
  | inside h1 h2 h3 h4 =>
    exfalso; apply hns; rw [hn']; simp

theorem same_dir {odb1 odb2 : Odb} {id1 id2 b1 b2 : Bytes} {c1 c2 : Tree.Spec.Contents} {es1 es2 : List Tree.Entry} (v1 : View odb1 id1 b1 c1 es1) (v2 : View odb2 id2 b2 c2 es2)
    (g1 : Good (trees odb1) (es1.map conv)) (g2 : Good (trees odb2) (es2.map conv))
    (hf : ∀ p m i, Has (trees odb1) (some (es1.map conv)) p m i → Has (trees odb2) (some (es2.map conv)) p m i) {n i : Bytes}
    (hc : c1 n = some (0o040000, i)) (ht : Tidy odb1 i) : ∃ j, c2 n = some (0o040000, j) := by
  have he : (⟨0o040000, n, i⟩ : Tree.Entry) ∈ es1 := (v1.mem _).mpr hc
  have hcan : TreeDiff.Spec.Canonical (es1.map conv) := by cases g1; assumption
  have hcan2 : TreeDiff.Spec.Canonical (es2.map conv) := by cases g2; assumption
  have hns : c!"/" ∉ n := (hcan.1 _ (List.mem_map.mpr ⟨_, he, rfl⟩)).2.1
  have htr : (conv ⟨0o040000, n, i⟩).isTree = true := (v1.isTree he).mpr rfl
  obtain ⟨sub, p, m, k, hs, hh⟩ := tidy_file ht (v1.full _ _ _ hc rfl)
  have h2 := hf _ _ _ ((has_sub g1 (List.mem_map.mpr ⟨_, he, rfl⟩) htr hs p m k).mpr hh)
  obtain ⟨es', x, hes, hat, hxf, rfl, rfl⟩ := h2
  cases hes
  generalize hn' : (conv ⟨0o040000, n, i⟩).name ++ b!"/" ++ p = n' at hat
  have hn'' : n ++ b!"/" ++ p = n' := hn'
  cases hat with
  | here h =>
    have h' := (hcan2.1 _ h).2.1
    exfalso
    have : x.name = n ++ b!"/" ++ p := by rw [hn'']; simp [TreeDiff.Spec.key, hxf]
    rw [this] at h'
    simp at h'
  | @inside _ sub d _ q h1 h2 h3 h4 =>
    have hnd := (hcan2.1 _ h1).2.1
    have : n = d.name := by
      have e1 := comp_dir hns p
      have e2 := comp_dir hnd q
      rw [hn'', e2] at e1
      exact e1.symm
    obtain ⟨t, ht, rfl⟩ := List.mem_map.mp h1
    have htm := (v2.mem t).mp ht
    rw [(v2.isTree ht).mp h2] at htm
    exact ⟨t.oid, this ▸ htm⟩

/-- There is at most one tidy tree with given files. -/
theorem tidy_unique {env : Env} {odb1 odb2 : Odb} (hh1 : Hashed env odb1) (hh2 : Hashed env odb2) {id1 : Bytes} (t1 : Tidy odb1 id1) : ∀ {id2 : Bytes}, Tidy odb2 id2 →
    ∀ {F : Bytes → Nat → Bytes → Prop}, Represents odb1 id1 F → Represents odb2 id2 F → id1 = id2 := by
  induction t1 with
  | @mk id1 b1 c1 h1 h2 hw h3 h4 h5 ih =>
    intro id2 t2 F r1 r2
    cases t2 with
    | @mk _ b2 c2 k1 k2 kw k3 k4 k5 =>
      obtain ⟨es1, v1⟩ := view_mk h1 h2 hw h3 h4
      obtain ⟨es2, v2⟩ := view_mk k1 k2 kw k3 k4
      obtain ⟨ts1, e1, g1, f1⟩ := r1
      obtain ⟨ts2, e2, g2, f2⟩ := r2
      have e1' := trees_of_lookup v1.lookup
      rw [e1] at e1'; cases e1'
      have e2' := trees_of_lookup v2.lookup
      rw [e2] at e2'; cases e2'
      have f12 : ∀ p m i, Has (trees odb1) (some (es1.map conv)) p m i → Has (trees odb2) (some (es2.map conv)) p m i := fun p m i h => (f2 p m i).mpr ((f1 p m i).mp h)
      have f21 : ∀ p m i, Has (trees odb2) (some (es2.map conv)) p m i → Has (trees odb1) (some (es1.map conv)) p m i := fun p m i h => (f1 p m i).mpr ((f2 p m i).mp h)
      have hsame : ∀ {n i j : Bytes}, c1 n = some (0o040000, i) → c2 n = some (0o040000, j) → i = j := by
        intro n i j hi hj
        have m1 : (⟨0o040000, n, i⟩ : Tree.Entry) ∈ es1 := (v1.mem _).mpr hi
        have m2 : (⟨0o040000, n, j⟩ : Tree.Entry) ∈ es2 := (v2.mem _).mpr hj
        have n1 : conv ⟨0o040000, n, i⟩ ∈ es1.map conv := List.mem_map.mpr ⟨_, m1, rfl⟩
        have n2 : conv ⟨0o040000, n, j⟩ ∈ es2.map conv := List.mem_map.mpr ⟨_, m2, rfl⟩
        have i1 := (v1.isTree m1).mpr rfl
        have i2 := (v2.isTree m2).mpr rfl
        have hg1 := g1
        have hg2 := g2
        cases hg1 with
        | mk _ ex1 gs1 =>
        cases hg2 with
        | mk _ ex2 gs2 =>
          obtain ⟨s1, hs1⟩ := Option.ne_none_iff_exists'.mp (ex1 _ n1 i1)
          obtain ⟨s2, hs2⟩ := Option.ne_none_iff_exists'.mp (ex2 _ n2 i2)
          refine ih _ _ _ hi rfl (k5 _ _ _ hj rfl) (F := fun p m k => F (n ++ b!"/" ++ p) m k) ⟨s1, hs1, gs1 _ n1 i1 _ hs1, ?_⟩ ⟨s2, hs2, gs2 _ n2 i2 _ hs2, ?_⟩
          · intro p m k
            rw [← has_sub g1 n1 i1 hs1]; exact f1 _ _ _
          · intro p m k
            rw [← has_sub g2 n2 i2 hs2]; exact f2 _ _ _
      have hcc : c1 = c2 := by
        have d1 : ∀ n m i, c1 n = some (m, i) → c2 n = some (m, i) := by
          intro n m i hc
          by_cases hm : m = 0o040000
          · subst hm
            obtain ⟨j, hj⟩ := same_dir v1 v2 g1 g2 f12 hc (h5 _ _ _ hc rfl)
            rw [hj, hsame hc hj]
          · exact same_file v1 v2 g1 f12 hc hm
        have d2 : ∀ n m i, c2 n = some (m, i) → c1 n = some (m, i) := by
          intro n m i hc
          by_cases hm : m = 0o040000
          · subst hm
            obtain ⟨j, hj⟩ := same_dir v2 v1 g2 g1 f21 hc (k5 _ _ _ hc rfl)
            rw [hj, hsame hj hc]
          · exact same_file v2 v1 g2 f21 hc hm
        funext n
        cases h : c1 n with
        | some x => exact (d1 n x.1 x.2 h).symm
        | none =>
          cases h' : c2 n with
          | none => rfl
          | some x => rw [d2 n x.1 x.2 h'] at h; cases h
      subst hcc
      have hb := Tree.canonical_unique h2 k2
      subst hb
      have a1 := hh1.1 _ (readObj_mem h1)
      have a2 := hh2.1 _ (readObj_mem k1)
      exact a1.trans a2.symm

/-- the cache that is made for a tidy tree has only tidy ones -/
theorem readRec_tidy {odb : Odb} (fuel : Nat) : ∀ {nm id : Bytes} {es : List Tree.Entry} {c : Cache}, readRec odb fuel nm id es = .ok c → lookupTree odb id = .ok es →
    Tidy odb id → ∀ ws c', getParts c ws = some c' → Tidy odb c'.oid := by
  induction fuel with
  | zero => intro nm id es c h; simp [readRec] at h
  | succ fuel ih =>
    intro nm id es c h hl ht ws c' hg
    have hfld := readRec_fields h
    cases ws with
    | nil => simp only [getParts, Option.some.injEq] at hg; subst hg; rw [hfld.2.1]; exact ht
    | cons w ws =>
      rw [readRec] at h
      split at h
      · rename_i n cs hrc
        cases h
        obtain ⟨-, hcs⟩ := readChildren_inv hrc (fun nm i sub c h => (readRec_fields h).2.2)
        simp only [getParts, Cache.children] at hg
        split at hg
        · cases hg
        · rename_i ch hfc
          obtain ⟨e, he, het, sub, hsl, hrd⟩ := hcs ch (findChild_mem hfc).1
          refine ih hrd hsl ?_ ws c' hg
          cases ht with
          | mk h1 h2 hw h3 h4 h5 =>
            obtain ⟨es', v⟩ := view_mk h1 h2 hw h3 h4
            have := v.lookup
            rw [hl] at this; cases this
            have hct : (conv e).isTree = true := by rw [conv_isTree (v.attr e he)]; exact het
            exact h5 _ _ _ ((v.mem e).mp he) ((v.isTree he).mp hct)
      · cases h
      · cases h

end Verif.IndexTree
