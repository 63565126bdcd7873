import Verif.IndexTree.Lemmas2
import Verif.IndexTree.Lemmas5
import Verif.Index.LemmasOps
/-! # Reading a tree -/
namespace Verif.IndexTree
open Spec
open TreeDiff.Spec (At Good Has)

variable {env : Env} {old : Index.St} {odb : Odb}

theorem has_cons {store : TreeDiff.Store} {e : TreeDiff.Entry} {es : List TreeDiff.Entry} {q : Bytes} {m : Nat} {i : Bytes} :
    Has store (some (e :: es)) q m i ↔ (e.isTree = false ∧ q = e.name ∧ m = e.mode ∧ i = e.id) ∨
      (e.isTree = true ∧ ∃ sub p, store e.id = some sub ∧ q = e.name ++ b!"/" ++ p ∧ Has store (some sub) p m i) ∨ Has store (some es) q m i := by
  constructor
  · rintro ⟨es', x, he, hat, hf, hm, hi⟩
    cases he
    cases hat with
    | here h =>
      rcases List.mem_cons.mp h with rfl | h
      · left; exact ⟨hf, by simp [TreeDiff.Spec.key, hf], hm, hi⟩
      · right; right; exact ⟨es, x, rfl, .here h, hf, hm, hi⟩
    | @inside _ sub d _ p hd hdt hs hat =>
      rcases List.mem_cons.mp hd with rfl | hd
      · right; left; exact ⟨hdt, sub, p, hs, rfl, sub, x, rfl, hat, hf, hm, hi⟩
      · right; right; exact ⟨es, x, rfl, .inside hd hdt hs hat, hf, hm, hi⟩
  · rintro (⟨hf, rfl, hm, hi⟩ | ⟨ht, sub, p, hs, rfl, es', x, he, hat, hf, hm, hi⟩ | ⟨es', x, he, hat, hf, hm, hi⟩)
    · refine ⟨e :: es, e, rfl, ?_, hf, hm, hi⟩
      have : e.name = TreeDiff.Spec.key e := by simp [TreeDiff.Spec.key, hf]
      rw [this]
      exact .here (by simp)
    · cases he
      exact ⟨e :: es, x, rfl, .inside (by simp) ht hs hat, hf, hm, hi⟩
    · cases he
      refine ⟨e :: es, x, rfl, ?_, hf, hm, hi⟩
      cases hat with
      | here h => exact .here (by simp [h])
      | inside hd hdt hs hat => exact .inside (by simp [hd]) hdt hs hat

theorem has_nil {store : TreeDiff.Store} {q : Bytes} {m : Nat} {i : Bytes} : ¬ Has store (some []) q m i := by
  rintro ⟨es', x, he, hat, _⟩
  cases he
  cases hat with
  | here h => cases h
  | inside h _ _ _ => cases h

/-- what the walk over a tree gives -/
structure Walked (env : Env) (old : Index.St) (store : TreeDiff.Store) (path : Bytes) (ts : List TreeDiff.Entry) (l : List Index.Entry) : Prop where
  asc : Asc l
  sound : ∀ x ∈ l, x.stage = 0 ∧ env.pathValid x.path = true ∧ ∃ q, x.path = path ++ q ∧ Has store (some ts) q x.mode x.id
  complete : ∀ q m i, Has store (some ts) q m i → ∃ x ∈ l, x.path = path ++ q ∧ x.mode = m ∧ x.id = i
  kept : ∀ o ∈ old.entries, o.stage = 0 → ∀ q, o.path = path ++ q → Has store (some ts) q o.mode o.id → o ∈ l

theorem cb_file (hi : Index.Inv old) {root : Bytes} {t : Tree.Entry} (ht : t.isTree = false) :
    (env.pathValid (root ++ t.name) = false ∧ readTreeCb env old root t = .err (-1)) ∨
    (env.pathValid (root ++ t.name) = true ∧ ∃ x, readTreeCb env old root t = .ok (some x) ∧ x.path = root ++ t.name ∧ x.stage = 0 ∧ x.mode = t.attr ∧ x.id = t.oid ∧
      ∀ o ∈ old.entries, o.stage = 0 → o.path = root ++ t.name → o.mode = t.attr → o.id = t.oid → x = o) := by
  unfold readTreeCb
  rw [if_neg (by simp [ht])]
  cases hv : env.pathValid (root ++ t.name) with
  | false => left; exact ⟨rfl, by simp⟩
  | true =>
    right
    refine ⟨rfl, ?_⟩
    rw [if_neg (by simp)]
    dsimp only
    rcases Index.find_ok hi (root ++ t.name) 0 with ⟨pos, o, h1, h2, h3, h4⟩ | ⟨pos, h1, h2⟩
    · rw [h1]
      dsimp only
      rw [h2]
      dsimp only
      have hm := List.mem_of_getElem? h2
      by_cases hc : t.attr = o.mode ∧ t.oid = o.id
      · rw [if_pos hc]
        refine ⟨_, rfl, rfl, h4, hc.1.symm, hc.2.symm, ?_⟩
        intro o' ho' hs hp _ _
        have : o = o' := hi.unique hm ho' (h3.trans hp.symm) (h4.trans hs.symm)
        subst this
        rw [← h3]
      · rw [if_neg hc]
        refine ⟨_, rfl, rfl, rfl, rfl, rfl, ?_⟩
        intro o' ho' hs hp hmo hio
        have : o = o' := hi.unique hm ho' (h3.trans hp.symm) (h4.trans hs.symm)
        subst this
        exact absurd ⟨hmo.symm, hio.symm⟩ hc
    · rw [h1]
      refine ⟨_, rfl, rfl, rfl, rfl, rfl, ?_⟩
      intro o' ho' hs hp _ _
      exact absurd ⟨hp, hs⟩ (h2 o' ho')

theorem conv_tree {e : Tree.Entry} (h : e.attr < 65536) : (conv e).isTree = e.isTree := conv_isTree h

/-- the walk over the entries of a tree, `walk` being right for the subdirectories -/
theorem walkLoop_right (hi : Index.Inv old) {walk : Bytes → List Tree.Entry → Res (List Index.Entry)}
    (hw : ∀ {path sub l}, walk path sub = .ok l → (∃ id, lookupTree odb id = .ok sub) → Good (trees odb) (sub.map conv) → Walked env old (trees odb) path (sub.map conv) l) (path : Bytes) :
    ∀ {es : List Tree.Entry} {l : List Index.Entry}, walkLoop env old odb walk path es = .ok l → (∀ e ∈ es, e.attr < 65536) → Good (trees odb) (es.map conv) →
      Walked env old (trees odb) path (es.map conv) l := by
  intro es
  induction es with
  | nil =>
    intro l h _ _
    cases h
    exact ⟨List.Pairwise.nil, by simp, fun q m i h => absurd h has_nil, fun o _ _ q _ h => absurd h has_nil⟩
  | cons t ts ih =>
    intro l h ha hg
    have hat : t.attr < 65536 := ha t (by simp)
    have hct := conv_tree hat
    unfold walkLoop at h
    dsimp only at h
    -- the part of the entry
    have hstep : ∃ l1 o l2, l = l1 ++ o.toList ++ l2 ∧ walkLoop env old odb walk path ts = .ok l2 ∧ readTreeCb env old path t = .ok o ∧
        ((t.isTree = true ∧ ∃ sub, lookupTree odb t.oid = .ok sub ∧ walk (path ++ t.name ++ b!"/") sub = .ok l1) ∨ (t.isTree = false ∧ l1 = [])) := by
      by_cases ht : t.isTree = true
      · rw [if_pos ht] at h
        cases hl : lookupTree odb t.oid with
        | err x => rw [hl] at h; cases h
        | ub => rw [hl] at h; cases h
        | ok sub =>
          rw [hl] at h
          dsimp only at h
          cases hws : walk (path ++ t.name ++ b!"/") sub with
          | err x => rw [hws] at h; cases h
          | ub => rw [hws] at h; cases h
          | ok l1 =>
            rw [hws] at h
            dsimp only at h
            cases hcb : readTreeCb env old path t with
            | err x => rw [hcb] at h; cases h
            | ub => rw [hcb] at h; cases h
            | ok o =>
              rw [hcb] at h
              dsimp only at h
              cases hr : walkLoop env old odb walk path ts with
              | err x => rw [hr] at h; cases h
              | ub => rw [hr] at h; cases h
              | ok l2 =>
                rw [hr] at h
                cases h
                exact ⟨l1, o, l2, rfl, rfl, rfl, .inl ⟨ht, sub, rfl, hws⟩⟩
      · rw [if_neg ht] at h
        dsimp only at h
        cases hcb : readTreeCb env old path t with
        | err x => rw [hcb] at h; cases h
        | ub => rw [hcb] at h; cases h
        | ok o =>
          rw [hcb] at h
          dsimp only at h
          cases hr : walkLoop env old odb walk path ts with
          | err x => rw [hr] at h; cases h
          | ub => rw [hr] at h; cases h
          | ok l2 =>
            rw [hr] at h
            cases h
            exact ⟨[], o, l2, rfl, rfl, rfl, .inr ⟨by simpa using ht, rfl⟩⟩
    obtain ⟨l1, o, l2, rfl, hr, hcb, hcase⟩ := hstep
    have hgt : Good (trees odb) (ts.map conv) := TreeDiff.good_tail hg
    have W2 := ih hr (fun e he => ha e (by simp [he])) hgt
    have hcan := TreeDiff.good_canonical hg
    -- what comes later is greater
    have hlater : ∀ y ∈ l2, ∀ s, (s = [] ∨ t.isTree = true) → path ++ TreeDiff.Spec.key (conv t) ++ s < y.path := by
      intro y hy s hs
      obtain ⟨_, _, q, hq, es', e', he', hat', _⟩ := W2.sound y hy
      cases he'
      obtain ⟨_, _, _, _, d, hd, ⟨u, hpre⟩, _⟩ := TreeDiff.at_path hgt hat'
      have hlt : TreeDiff.Spec.key (conv t) < TreeDiff.Spec.key d := (List.pairwise_cons.mp hcan.2).1 d hd
      rw [hq, List.append_assoc]
      refine TreeDiff.append_lt_left ?_
      rw [← hpre]
      rcases hs with rfl | ht
      · rw [List.append_nil]
        exact B.lt_of_lt_of_le hlt (B.prefix_le (List.prefix_append _ _))
      · exact TreeDiff.append_lt hlt (TreeDiff.key_not_prefix hcan List.mem_cons_self (List.mem_cons_of_mem _ hd) (hct.trans ht) hlt) _ _
    rcases hcase with ⟨ht, sub, hl, hws⟩ | ⟨ht, rfl⟩
    · have ho : o = none := by
        unfold readTreeCb at hcb
        rw [if_pos ht] at hcb
        cases hcb; rfl
      subst ho
      have hst : trees odb (conv t).id = some (sub.map conv) := trees_of_lookup hl
      have W1 := hw hws ⟨_, hl⟩ (TreeDiff.good_sub hg (by simp) (hct.trans ht) hst)
      have hkey : TreeDiff.Spec.key (conv t) = t.name ++ b!"/" := by
        unfold TreeDiff.Spec.key
        rw [hct, if_pos ht]; rfl
      simp only [Option.toList_none, List.append_nil]
      refine ⟨?_, ?_, ?_, ?_⟩
      · refine List.pairwise_append.mpr ⟨W1.asc, W2.asc, ?_⟩
        intro x hx y hy
        obtain ⟨_, _, q, hq, _⟩ := W1.sound x hx
        have := hlater y hy q (.inr ht)
        rw [hkey, ← List.append_assoc, ← hq] at this
        exact this
      · intro x hx
        rcases List.mem_append.mp hx with hx | hx
        · obtain ⟨h1, h2, q, hq, hh⟩ := W1.sound x hx
          refine ⟨h1, h2, t.name ++ b!"/" ++ q, by rw [hq]; simp, ?_⟩
          rw [List.map_cons, has_cons]
          exact .inr (.inl ⟨hct.trans ht, _, q, hst, rfl, hh⟩)
        · obtain ⟨h1, h2, q, hq, hh⟩ := W2.sound x hx
          refine ⟨h1, h2, q, hq, ?_⟩
          rw [List.map_cons, has_cons]
          exact .inr (.inr hh)
      · intro q m i hh
        rw [List.map_cons, has_cons] at hh
        rcases hh with ⟨hf, _⟩ | ⟨_, sub', p, hs', rfl, hh⟩ | hh
        · rw [hct, ht] at hf; cases hf
        · rw [hst] at hs'; cases hs'
          obtain ⟨x, hx, hp, r⟩ := W1.complete p m i hh
          exact ⟨x, List.mem_append_left _ hx, by rw [hp]; simp [conv], r⟩
        · obtain ⟨x, hx, r⟩ := W2.complete q m i hh
          exact ⟨x, List.mem_append_right _ hx, r⟩
      · intro o ho hs q hq hh
        rw [List.map_cons, has_cons] at hh
        rcases hh with ⟨hf, _⟩ | ⟨_, sub', p, hs', rfl, hh⟩ | hh
        · rw [hct, ht] at hf; cases hf
        · rw [hst] at hs'; cases hs'
          exact List.mem_append_left _ (W1.kept o ho hs p (by rw [hq]; simp [conv]) hh)
        · exact List.mem_append_right _ (W2.kept o ho hs q hq hh)
    · rcases cb_file (env := env) hi (root := path) ht with ⟨_, h2⟩ | ⟨hv, x, h2, h3, h4, h5, h6, h7⟩
      · rw [h2] at hcb; cases hcb
      · rw [h2] at hcb
        cases hcb
        have hkey : TreeDiff.Spec.key (conv t) = t.name := by
          unfold TreeDiff.Spec.key
          rw [hct, ht]; rfl
        simp only [Option.toList_some, List.nil_append, List.singleton_append]
        refine ⟨?_, ?_, ?_, ?_⟩
        · refine List.pairwise_cons.mpr ⟨?_, W2.asc⟩
          intro y hy
          have := hlater y hy [] (.inl rfl)
          rw [hkey, List.append_nil, ← h3] at this
          exact this
        · intro y hy
          rcases List.mem_cons.mp hy with hyx | hy
          · subst hyx
            refine ⟨h4, by rw [h3]; exact hv, t.name, h3, ?_⟩
            rw [List.map_cons, has_cons]
            exact .inl ⟨hct.trans ht, rfl, h5, h6⟩
          · obtain ⟨h1, h2, q, hq, hh⟩ := W2.sound y hy
            refine ⟨h1, h2, q, hq, ?_⟩
            rw [List.map_cons, has_cons]
            exact .inr (.inr hh)
        · intro q m i hh
          rw [List.map_cons, has_cons] at hh
          rcases hh with ⟨_, rfl, rfl, rfl⟩ | ⟨hf, _⟩ | hh
          · exact ⟨x, by simp, h3, h5, h6⟩
          · rw [hct, ht] at hf; cases hf
          · obtain ⟨y, hy, r⟩ := W2.complete q m i hh
            exact ⟨y, by simp [hy], r⟩
        · intro o ho hs q hq hh
          rw [List.map_cons, has_cons] at hh
          rcases hh with ⟨_, rfl, hm, hi'⟩ | ⟨hf, _⟩ | hh
          · rw [h7 o ho hs hq hm hi']; simp
          · rw [hct, ht] at hf; cases hf
          · exact List.mem_cons_of_mem _ (W2.kept o ho hs q hq hh)

theorem treeWalk_right (hi : Index.Inv old) (fuel : Nat) : ∀ {path : Bytes} {es : List Tree.Entry} {l : List Index.Entry}, treeWalk env old odb fuel path es = .ok l →
    (∃ id, lookupTree odb id = .ok es) → Good (trees odb) (es.map conv) → Walked env old (trees odb) path (es.map conv) l := by
  induction fuel with
  | zero => intro path es l h; cases h
  | succ fuel ih =>
    intro path es l h hid hg
    obtain ⟨id, hid⟩ := hid
    exact walkLoop_right hi ih path h (parse_attr hid) hg

theorem treeWalk_total (hi : Index.Inv old) {ts : List TreeDiff.Entry} (hg : Good (trees odb) ts) : ∃ N, ∀ fuel, N ≤ fuel → ∀ (path : Bytes) (es : List Tree.Entry), es.map conv = ts →
    (∀ e ∈ es, e.attr < 65536) → (∀ q m i, Has (trees odb) (some ts) q m i → env.pathValid (path ++ q) = true) → ∃ l, treeWalk env old odb fuel path es = .ok l := by
  induction hg with
  | @mk ts hc hs hgs ih =>
    have key : ∀ l : List TreeDiff.Entry, (∀ d ∈ l, d ∈ ts) → ∃ N, ∀ fuel, N ≤ fuel → ∀ (path : Bytes) (es : List Tree.Entry), es.map conv = l → (∀ e ∈ es, e.attr < 65536) →
        (∀ q m i, Has (trees odb) (some l) q m i → env.pathValid (path ++ q) = true) → ∃ t, walkLoop env old odb (treeWalk env old odb fuel) path es = .ok t := by
      intro l
      induction l with
      | nil =>
        intro _
        refine ⟨0, fun fuel _ path es he _ _ => ?_⟩
        rw [List.map_eq_nil_iff] at he
        subst he
        exact ⟨_, rfl⟩
      | cons d l ihl =>
        intro hl
        obtain ⟨N1, hN1⟩ := ihl (fun x hx => hl x (by simp [hx]))
        have hdts := hl d (by simp)
        have hsub : ∃ N, ∀ fuel, N ≤ fuel → ∀ (path : Bytes) (e : Tree.Entry), conv e = d → e.attr < 65536 → e.isTree = true →
            (∀ q m i, Has (trees odb) (some (d :: l)) q m i → env.pathValid (path ++ q) = true) →
            ∃ sub x, lookupTree odb e.oid = .ok sub ∧ treeWalk env old odb fuel (path ++ e.name ++ b!"/") sub = .ok x := by
          by_cases hdt : d.isTree = true
          · cases hx : trees odb d.id with
            | none => exact absurd hx (hs d hdts hdt)
            | some sub =>
              obtain ⟨N, hN⟩ := ih d hdts hdt sub hx
              refine ⟨N, fun fuel hf path e he ha ht hv => ?_⟩
              obtain ⟨sub', h1, h2⟩ := lookup_of_trees hx
              obtain ⟨x, hx'⟩ := hN fuel hf (path ++ e.name ++ b!"/") sub' h2 (parse_attr h1) (by
                intro q m i hh
                have := hv (d.name ++ b!"/" ++ q) m i (has_cons.mpr (.inr (.inl ⟨hdt, sub, q, hx, rfl, hh⟩)))
                rw [← he] at this
                simpa [conv] using this)
              exact ⟨sub', x, by rw [← he] at h1; exact h1, hx'⟩
          · refine ⟨0, fun fuel hf path e he ha ht _ => ?_⟩
            subst he
            exact absurd ((conv_tree ha).trans ht) hdt
        obtain ⟨N2, hN2⟩ := hsub
        refine ⟨max N1 N2, fun fuel hf path es he ha hv => ?_⟩
        cases es with
        | nil => cases he
        | cons e es =>
          simp only [List.map_cons, List.cons.injEq] at he
          have hae := ha e (by simp)
          obtain ⟨t, ht⟩ := hN1 fuel (by omega) path es he.2 (fun x hx => ha x (by simp [hx])) (fun q m i hh => hv q m i (has_cons.mpr (.inr (.inr hh))))
          unfold walkLoop
          dsimp only
          by_cases het : e.isTree = true
          · rw [if_pos het]
            obtain ⟨sub, x, h1, h2⟩ := hN2 fuel (by omega) path e he.1 hae het hv
            rw [h1]; dsimp only
            rw [h2]; dsimp only
            unfold readTreeCb
            rw [if_pos het]; dsimp only
            rw [ht]
            exact ⟨_, rfl⟩
          · rw [if_neg het]
            dsimp only
            have het' : e.isTree = false := by simpa using het
            rcases cb_file (env := env) hi (root := path) het' with ⟨h1, _⟩ | ⟨_, x, h1, _⟩
            · have := hv e.name e.attr e.oid (has_cons.mpr (.inl ⟨by rw [← he.1, conv_tree hae]; exact het', by rw [← he.1]; rfl, by rw [← he.1]; rfl, by rw [← he.1]; rfl⟩))
              rw [this] at h1; cases h1
            · rw [h1]; dsimp only
              rw [ht]
              exact ⟨_, rfl⟩
    obtain ⟨N, hN⟩ := key ts (fun _ h => h)
    refine ⟨N + 1, fun fuel hf path es he ha hv => ?_⟩
    cases fuel with
    | zero => omega
    | succ fuel => exact hN fuel (by omega) path es he ha hv

end Verif.IndexTree
