import Verif.IndexTree.Lemmas1
/-! # The end of `write_tree`: what the tree builder writes -/
namespace Verif.IndexTree
open Spec
open TreeDiff.Spec (At Good Has)

theorem canonical_parse {c : Tree.Spec.Contents} {bytes : Bytes} (h : Tree.Spec.Canonical c bytes)
    (hc : ∀ n m i, c n = some (m, i) → m < 65536 ∧ Tree.Spec.Name n ∧ i.length = 20) :
    ∃ es, Tree.parseRaw bytes = .ok es ∧ (∀ e : Tree.Entry, e ∈ es ↔ c e.name = some (e.attr, e.oid)) ∧
      es.Pairwise (fun a b => Tree.Spec.gitKey a.attr a.name < Tree.Spec.gitKey b.attr b.name) := by
  obtain ⟨ts, hm, hp, modes, ho, rfl⟩ := h
  refine ⟨ts.map (fun t => ⟨t.1, t.2.1, t.2.2⟩), ?_, ?_, ?_⟩
  · rw [Tree.C09_parse_exact]
    have hc' : ∀ t ∈ ts, t.1 < 65536 ∧ Tree.Spec.Name t.2.1 ∧ t.2.2.length = 20 := by
      rintro ⟨m, n, i⟩ ht
      exact hc n m i ((hm m n i).mp ht)
    have hid : (ts.map (fun t => (⟨t.1, t.2.1, t.2.2⟩ : Tree.Entry))).map (fun e => (e.attr, e.name, e.oid)) = ts := by
      rw [List.map_map]
      conv => rhs; rw [← List.map_id ts]
      rfl
    rw [hid]
    clear hm hp hid
    induction ts with
    | nil => exact .nil
    | cons t ts ih =>
      obtain ⟨h1, h2, h3⟩ := hc' t (by simp)
      rw [List.flatMap_cons]
      obtain ⟨g1, g2, g3⟩ := ho t.1
      obtain ⟨m, n, i⟩ := t
      exact .cons (es := ts) ⟨[], modes m, rfl, g2, g1, h1, .inl rfl⟩ h2 h3 (ih (fun x hx => hc' x (by simp [hx])))
  · intro e
    rw [← hm, List.mem_map]
    constructor
    · rintro ⟨⟨m, n, i⟩, ht, rfl⟩; exact ht
    · intro ht; exact ⟨_, ht, rfl⟩
  · rw [List.pairwise_map]; exact hp

theorem conv_isTree {e : Tree.Entry} (h : e.attr < 65536) : (conv e).isTree = e.isTree := by
  rw [Tree.isTree_iff e h]
  unfold conv TreeDiff.Entry.isTree TreeDiff.modeType
  have : e.attr / 0o10000 % 16 = e.attr / 4096 := Nat.mod_eq_of_lt (by omega)
  simp [this]

theorem key_conv {e : Tree.Entry} (h : e.attr < 65536) : TreeDiff.Spec.key (conv e) = Tree.Spec.gitKey e.attr e.name := by
  unfold TreeDiff.Spec.key Tree.Spec.gitKey
  rw [conv_isTree h, Tree.isTree_iff e h]
  simp [conv]

theorem trees_eq {odb : Odb} {id bytes : Bytes} {es : List Tree.Entry} (h1 : readObj odb id = some bytes) (h2 : Tree.parseRaw bytes = .ok es) : trees odb id = some (es.map conv) := by
  unfold trees lookupTree
  rw [h1]; simp only [h2]

/-- the entries of an index that can be written -/
structure FitA (A : List Index.Entry) : Prop where
  asc : Asc A
  path : ∀ e ∈ A, GoodPath e.path
  len : ∀ e ∈ A, e.path.length ≤ 65535
  id : ∀ e ∈ A, e.id.length = 20
  mode : ∀ e ∈ A, e.mode ≠ 0o040000
  clash : ∀ x ∈ A, ∀ y ∈ A, ∀ r, y.path ≠ x.path ++ c!"/" :: r
  size : A.length < 2 ^ 30

/-- what a tree builder has, for the directory with the prefix `π`, `T`: and the subdirectories are tidy -/
structure Ent (A : List Index.Entry) (T : Prop) (odb : Odb) (π : Bytes) (n : Bytes) (m : Nat) (i : Bytes) : Prop where
  ne : n ≠ []
  noslash : c!"/" ∉ n
  nonul : (0 : UInt8) ∉ n
  len : n.length ≤ 65535
  id : i.length = 20
  what : (Tree.validFilemode m = true ∧ m ≠ 0o040000 ∧ ∃ x ∈ A, x.path = π ++ n ∧ x.mode = m ∧ x.id = i) ∨
    (m = 0o040000 ∧ (∃ x ∈ A, (π ++ n ++ b!"/") <+: x.path) ∧ Represents odb i (filesP A (π ++ n ++ b!"/")) ∧ (T → Tidy odb i))

theorem tidy_append {odb : Odb} {id : Bytes} (ext : Odb) (h : Tidy odb id) : Tidy (odb ++ ext) id := by
  induction h with
  | @mk id bytes c h1 h2 hw h3 h4 h5 ih =>
    refine .mk (readObj_append ext h1) h2 hw ?_ h4 ih
    intro n m i hc hm hr
    have ht := h5 n m i hc hm
    cases ht with
    | mk g1 _ _ _ _ _ =>
      have := readObj_append ext g1
      rw [this] at hr
      cases hr
      exact h3 n m i hc hm g1

theorem Ent.append {A : List Index.Entry} {T : Prop} {odb : Odb} {π n : Bytes} {m : Nat} {i : Bytes} (ext : Odb) (h : Ent A T odb π n m i) : Ent A T (odb ++ ext) π n m i :=
  ⟨h.ne, h.noslash, h.nonul, h.len, h.id, h.what.imp (fun h => h) (fun ⟨a, b, c, d⟩ => ⟨a, b, represents_append ext c, fun t => tidy_append ext (d t)⟩)⟩

theorem valid_lt {m : Nat} (h : Tree.validFilemode m = true) : m < 65536 := Tree.validFilemode_lt h

theorem Ent.attr {A : List Index.Entry} {T : Prop} {odb : Odb} {π n : Bytes} {m : Nat} {i : Bytes} (h : Ent A T odb π n m i) : m < 65536 := by
  rcases h.what with ⟨h, -⟩ | ⟨rfl, -⟩
  · exact valid_lt h
  · decide

theorem Ent.tree_iff {A : List Index.Entry} {T : Prop} {odb : Odb} {π n : Bytes} {m : Nat} {i : Bytes} (h : Ent A T odb π n m i) : m / 4096 = 4 ↔ m = 0o040000 := by
  rcases h.what with ⟨h, h', -⟩ | ⟨rfl, -⟩
  · unfold Tree.validFilemode at h
    simp only [decide_eq_true_eq] at h
    constructor
    · intro h4; omega
    · rintro rfl; rfl
  · decide

/-- The object written for complete contents has the files of the directory. -/
theorem represents_of_canonical {A : List Index.Entry} (hA : FitA A) {T : Prop} {odb : Odb} {π : Bytes} {c : Tree.Spec.Contents} {id bytes : Bytes}
    (hπ : π = [] ∨ π.getLast? = some c!"/") (hent : ∀ n m i, c n = some (m, i) → Ent A T odb π n m i)
    (hcov : ∀ x ∈ A, ∀ q, x.path = π ++ q → c (comp q) ≠ none) (hcan : Tree.Spec.Canonical c bytes) (hr : readObj odb id = some bytes) :
    Represents odb id (filesP A π) ∧ (T → Tidy odb id) := by
  obtain ⟨es, hp, hmem, hsort⟩ := canonical_parse hcan (fun n m i h => by
    have := hent n m i h
    exact ⟨this.attr, ⟨this.ne, this.nonul, this.len⟩, this.id⟩)
  have hE : ∀ e ∈ es, Ent A T odb π e.name e.attr e.oid := fun e he => hent _ _ _ ((hmem e).mp he)
  have hattr : ∀ e ∈ es, e.attr < 65536 := fun e he => (hE e he).attr
  have hTree : ∀ e ∈ es, ((conv e).isTree = true ↔ e.attr = 0o040000) := by
    intro e he
    rw [conv_isTree (hattr e he), Tree.isTree_iff e (hattr e he), decide_eq_true_eq]
    exact (hE e he).tree_iff
  have hsub : ∀ e ∈ es, e.attr = 0o040000 → (∃ x ∈ A, (π ++ e.name ++ b!"/") <+: x.path) ∧ Represents odb e.oid (filesP A (π ++ e.name ++ b!"/")) ∧ (T → Tidy odb e.oid) := by
    intro e he hm
    rcases (hE e he).what with ⟨_, h, _⟩ | ⟨_, h⟩
    · exact absurd hm h
    · exact h
  have hgood : Good (trees odb) (es.map conv) := by
    refine .mk ⟨?_, ?_⟩ ?_ ?_
    · intro d hd
      obtain ⟨e, he, rfl⟩ := List.mem_map.mp hd
      exact ⟨(hE e he).ne, (hE e he).noslash, (hE e he).nonul⟩
    · rw [List.pairwise_map]
      refine hsort.imp_of_mem ?_
      intro a b ha hb hab
      rw [key_conv (hattr a ha), key_conv (hattr b hb)]
      exact hab
    · intro d hd ht
      obtain ⟨e, he, rfl⟩ := List.mem_map.mp hd
      obtain ⟨_, ⟨sub, h1, _⟩, _⟩ := hsub e he ((hTree e he).mp ht)
      have : trees odb (conv e).id = some sub := h1
      rw [this]; simp
    · intro d hd ht sub hs
      obtain ⟨e, he, rfl⟩ := List.mem_map.mp hd
      obtain ⟨_, ⟨sub', h1, h2, _⟩, _⟩ := hsub e he ((hTree e he).mp ht)
      have hs' : trees odb e.oid = some sub := hs
      rw [h1] at hs'; cases hs'
      exact h2
  refine ⟨⟨es.map conv, trees_eq hr hp, hgood, ?_⟩, ?_⟩
  · intro p m i
    constructor
    · rintro ⟨es', e, he, hat, hf, rfl, rfl⟩
      cases he
      cases hat with
      | here hm =>
        obtain ⟨t, ht, rfl⟩ := List.mem_map.mp hm
        have hk : TreeDiff.Spec.key (conv t) = t.name := by unfold TreeDiff.Spec.key; rw [hf]; rfl
        rw [hk]
        rcases (hE t ht).what with ⟨_, _, x, hx, h1, h2, h3⟩ | ⟨h, _⟩
        · exact ⟨x, hx, h1, h2, h3⟩
        · rw [(hTree t ht).mpr h] at hf; cases hf
      | @inside _ sub d _ q hd hdt hs hat =>
        obtain ⟨t, ht, rfl⟩ := List.mem_map.mp hd
        obtain ⟨_, ⟨sub', h1, h2, h3⟩, _⟩ := hsub t ht ((hTree t ht).mp hdt)
        have hs' : trees odb t.oid = some sub := hs
        rw [h1] at hs'; cases hs'
        obtain ⟨x, hx, hxp, hxm, hxi⟩ := (h3 q e.mode e.id).mp ⟨sub, e, rfl, hat, hf, rfl, rfl⟩
        refine ⟨x, hx, ?_, hxm, hxi⟩
        rw [hxp]; simp [conv]
    · rintro ⟨x, hx, hxp, rfl, rfl⟩
      have hcv := hcov x hx p hxp
      cases hcc : c (comp p) with
      | none => exact absurd hcc hcv
      | some mi =>
        obtain ⟨m, i⟩ := mi
        have ht : (⟨m, comp p, i⟩ : Tree.Entry) ∈ es := (hmem _).mpr hcc
        rcases (hE _ ht).what with ⟨hv, hm, y, hy, h1, h2, h3⟩ | ⟨hm, ⟨y, hy, hyp⟩, ⟨sub, g1, g2, g3⟩, _⟩
        · rcases comp_split p with hp' | ⟨r, hp'⟩
          · have hxy : x = y := asc_inj hA.asc hx hy (by rw [hxp, h1]; dsimp only; rw [← hp'])
            subst hxy
            refine ⟨es.map conv, conv ⟨m, comp p, i⟩, rfl, ?_, ?_, h2, h3⟩
            · have hk : TreeDiff.Spec.key (conv ⟨m, comp p, i⟩) = p := by
                rw [key_conv (valid_lt hv), Tree.Spec.gitKey, if_neg (fun h => hm ((hE _ ht).tree_iff.mp h))]
                exact hp'.symm
              conv => arg 3; rw [← hk]
              exact .here (List.mem_map.mpr ⟨_, ht, rfl⟩)
            · rw [← Bool.not_eq_true, hTree _ ht]; exact hm
          · exfalso
            refine hA.clash y hy x hx r ?_
            rw [hxp, h1]
            dsimp only
            conv => lhs; rw [hp']
            simp
        · rcases comp_split p with hp' | ⟨r, hp'⟩
          · exfalso
            obtain ⟨r, hr⟩ := hyp
            refine hA.clash x hx y hy r ?_
            rw [← hr, hxp]
            dsimp only
            rw [← hp']
            simp
          · obtain ⟨sub', e, he, hat, hf, hm1, hi1⟩ := (g3 r x.mode x.id).mpr ⟨x, hx, by rw [hxp]; conv => lhs; rw [hp']; ; simp, rfl, rfl⟩
            cases he
            refine ⟨es.map conv, e, rfl, ?_, hf, hm1, hi1⟩
            have := At.inside (store := trees odb) (d := conv ⟨m, comp p, i⟩) (List.mem_map.mpr ⟨_, ht, rfl⟩) ((hTree _ ht).mpr hm) g1 hat
            rw [hp']
            exact this
  · intro hT
    refine .mk hr hcan (fun n m i h => ?_) ?_ ?_ ?_
    · have := hent n m i h
      exact ⟨this.attr, ⟨this.ne, this.nonul, this.len⟩, this.id⟩
    · intro n m i hc hm he
      have ht : (⟨m, n, i⟩ : Tree.Entry) ∈ es := (hmem _).mpr hc
      obtain ⟨⟨y, hy, r, hyp⟩, ⟨sub, g1, g2, g3⟩, _⟩ := hsub _ ht hm
      obtain ⟨sub', e, he', hat, _⟩ := (g3 r y.mode y.id).mpr ⟨y, hy, hyp.symm, rfl, rfl⟩
      cases he'
      have : trees odb i = some [] := trees_eq (es := []) he rfl
      rw [this] at g1
      cases g1
      cases hat with
      | here h => cases h
      | inside h _ _ _ => cases h
    · intro n m i hc h4
      exact (hent n m i hc).tree_iff.mp h4
    · intro n m i hc hm
      have ht : (⟨m, n, i⟩ : Tree.Entry) ∈ es := (hmem _).mpr hc
      exact (hsub _ ht hm).2.2 hT

end Verif.IndexTree
