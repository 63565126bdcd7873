import Verif.IndexTree.Lemmas7
/-! # Reading a tree into the index -/
namespace Verif.IndexTree
open Spec
open TreeDiff.Spec (At Good Has)

theorem entryCmp_order : Sort.Spec.TotalPreorder Index.entryCmp where
  flip a b := by have := Index.entryCmp_flip a b; omega
  trans a b c h1 h2 := by
    by_cases h3 : Index.entryCmp a b = 0
    · obtain ⟨e1, e2⟩ := Index.entryCmp_zero.mp h3
      rw [Index.entryCmp_key a b c e1 e2]; exact h2
    · by_cases h4 : Index.entryCmp b c = 0
      · obtain ⟨e1, e2⟩ := Index.entryCmp_zero.mp h4
        have h5 := Index.entryCmp_key b c a e1 e2
        have h6 := Index.entryCmp_flip a b
        have h7 := Index.entryCmp_flip a c
        omega
      · have := Index.entryCmp_lt_trans (a := a) (b := b) (c := c) (by omega) (by omega)
        omega

theorem entryCmp_of_path {a b : Index.Entry} (h : a.path < b.path) : Index.entryCmp a b < 0 := by
  have h1 : bcmp a.path b.path < 0 := bcmp_lt.mpr h
  unfold Index.entryCmp
  simp only
  rw [if_neg (by omega)]
  exact h1

theorem path_of_entryCmp {a b : Index.Entry} (h : Index.entryCmp a b < 0) (hs : a.stage = b.stage) : a.path < b.path := by
  unfold Index.entryCmp at h
  simp only at h
  split at h
  · omega
  · exact bcmp_lt.mp h

theorem mapOf_spec : ∀ {l : List Index.Entry} (m : Bytes → Nat → Option Index.Entry), Asc l → ∀ p s e,
    mapOf l m p s = some e ↔ (e ∈ l ∧ e.path = p ∧ e.stage = s) ∨ ((∀ x ∈ l, ¬ (x.path = p ∧ x.stage = s)) ∧ m p s = some e) := by
  intro l
  induction l with
  | nil => intro m _ p s e; simp [mapOf]
  | cons a as ih =>
    intro m ha p s e
    have ha' : Asc as := (List.pairwise_cons.mp ha).2
    have hlt := (List.pairwise_cons.mp ha).1
    rw [mapOf, ih _ ha']
    unfold Index.putmap
    by_cases hk : p = a.path ∧ s = a.stage
    · obtain ⟨rfl, rfl⟩ := hk
      simp only [and_self, if_true]
      have hno : ∀ x ∈ as, ¬ (x.path = a.path ∧ x.stage = a.stage) := fun x hx h => by
        have := hlt x hx; rw [h.1] at this; exact B.lt_irrefl this
      constructor
      · rintro (⟨h1, h2, h3⟩ | ⟨h1, h2⟩)
        · exact absurd ⟨h2, h3⟩ (hno e h1)
        · cases h2; exact .inl ⟨by simp, rfl, rfl⟩
      · rintro (⟨h1, h2, h3⟩ | ⟨h1, -⟩)
        · rcases List.mem_cons.mp h1 with rfl | h1
          · exact .inr ⟨hno, rfl⟩
          · exact absurd ⟨h2, h3⟩ (hno e h1)
        · exact absurd ⟨rfl, rfl⟩ (h1 a (by simp))
    · simp only [if_neg hk]
      constructor
      · rintro (⟨h1, h2, h3⟩ | ⟨h1, h2⟩)
        · exact .inl ⟨by simp [h1], h2, h3⟩
        · refine .inr ⟨?_, h2⟩
          intro x hx
          rcases List.mem_cons.mp hx with rfl | hx
          · exact fun h => hk ⟨h.1.symm, h.2.symm⟩
          · exact h1 x hx
      · rintro (⟨h1, h2, h3⟩ | ⟨h1, h2⟩)
        · rcases List.mem_cons.mp h1 with rfl | h1
          · exact absurd ⟨h2.symm, h3.symm⟩ hk
          · exact .inl ⟨h1, h2, h3⟩
        · exact .inr ⟨fun x hx => h1 x (by simp [hx]), h2⟩

theorem sort_asc {l out : List Index.Entry} (ha : Asc l) (h : Sort.tsort Index.entryCmp l = .ok out) : out = l := by
  have hl : Sort.Spec.StableSort Index.entryCmp l l := ⟨ha.imp (fun h => by have := entryCmp_of_path h; omega), List.Perm.refl _, fun _ => rfl⟩
  rcases Sort.C26_sorts_any entryCmp_order l with ⟨o, h1, h2⟩ | ⟨-, h1⟩
  · rw [h] at h1; cases h1
    exact Sort.C26_stable_sort_unique entryCmp_order l _ _ h2 hl
  · rw [h] at h1; cases h1

theorem inv_read {l : List Index.Entry} (ha : Asc l) : Index.Inv ⟨l, mapOf l (fun _ _ => none)⟩ :=
  ⟨ha.imp entryCmp_of_path, fun p s e => by simpa using mapOf_spec (fun _ _ => none) ha p s e⟩

/-- the cache that is made for a tree -/
theorem cacheRight_read {odb : Odb} {fuel : Nat} {id : Bytes} {es : List Tree.Entry} {c : Cache} (h : cacheReadTree odb fuel id es = .ok c) (hl : lookupTree odb id = .ok es)
    (hg : Good (trees odb) (es.map conv)) {idx : Index.St} (hf : ∀ p m i, Has (trees odb) (some (es.map conv)) p m i ↔ filesIn idx [] p m i) :
    CacheRight odb idx (some c) ∧ c.oid = id ∧ 0 ≤ c.count := by
  obtain ⟨h1, h2⟩ := readRec_right fuel h hl hg
  obtain ⟨-, h3, h4⟩ := readRec_fields h
  refine ⟨⟨?_, ?_, ?_⟩, h3, h4⟩
  · rintro c' hc' -
    cases hc'
    refine represents_congr (h2 [] c rfl) ?_
    intro p m i
    simpa [dirOf] using hf p m i
  · intro d c' hd hget _
    refine represents_congr (h2 (parts d) c' hget) ?_
    intro p m i
    rw [dirOf_pre hd, hf]
    simp [filesIn, pre, hd]
  · simp only [cacheGet, parts, Option.bind_some]
    rw [getParts, h1]

/-- what `git_index_read_tree` does -/
structure ReadOk (env : Env) (s s' : St) (id : Bytes) (es : List Tree.Entry) : Prop where
  files : ∀ p m i, Has (trees s.odb) (some (es.map conv)) p m i ↔ filesIn s'.idx [] p m i
  stage : ∀ x ∈ s'.idx.entries, x.stage = 0 ∧ env.pathValid x.path = true
  kept : ∀ o ∈ s.idx.entries, o.stage = 0 → Has (trees s.odb) (some (es.map conv)) o.path o.mode o.id → o ∈ s'.idx.entries
  cache : ∃ c, s'.cache = some c ∧ c.oid = id ∧ 0 ≤ c.count

theorem walked_files {env : Env} {old : Index.St} {store : TreeDiff.Store} {ts : List TreeDiff.Entry} {l : List Index.Entry} (h : Walked env old store [] ts l)
    {mp : Bytes → Nat → Option Index.Entry} (p : Bytes) (m : Nat) (i : Bytes) : Has store (some ts) p m i ↔ filesIn ⟨l, mp⟩ [] p m i := by
  simp only [filesIn, pre, if_true, List.nil_append]
  constructor
  · intro hh
    obtain ⟨x, hx, h1, h2, h3⟩ := h.complete p m i hh
    exact ⟨x, hx, (h.sound x hx).1, by simpa using h1, h2, h3⟩
  · rintro ⟨x, hx, -, h1, h2, h3⟩
    obtain ⟨-, -, q, hq, hh⟩ := h.sound x hx
    subst h2 h3
    rw [← h1]
    have : x.path = q := by simpa using hq
    rw [this]; exact hh

theorem readTree_right {env : Env} {fuel : Nat} {s s' : St} {id : Bytes} {es : List Tree.Entry} {r : Res Unit} (hi : Index.Inv s.idx) (hc : CacheRight s.odb s.idx s.cache)
    (hl : lookupTree s.odb id = .ok es) (hg : Good (trees s.odb) (es.map conv)) (h : readTree env fuel s id es = (s', r)) :
    s'.odb = s.odb ∧ Index.Inv s'.idx ∧ CacheRight s'.odb s'.idx s'.cache ∧ (r = .ok () → ReadOk env s s' id es) := by
  unfold readTree at h
  split at h
  · cases h; exact ⟨rfl, hi, cacheRight_none _ _, fun h => by cases h⟩
  · cases h; exact ⟨rfl, hi, hc, fun h => by cases h⟩
  · rename_i new hw
    have hW := treeWalk_right hi fuel hw ⟨id, hl⟩ hg
    split at h
    · cases h; exact ⟨rfl, hi, cacheRight_none _ _, fun h => by cases h⟩
    · cases h; exact ⟨rfl, hi, hc, fun h => by cases h⟩
    · rename_i sorted hs
      have hs' := sort_asc hW.asc hs
      subst hs'
      split at h
      · rename_i c hrd
        cases h
        obtain ⟨h1, h2, h3⟩ := cacheRight_read hrd hl hg (fun p m i => walked_files hW (mp := mapOf sorted (fun _ _ => none)) p m i)
        refine ⟨rfl, inv_read hW.asc, h1, fun _ => ⟨fun p m i => walked_files hW p m i, fun x hx => ⟨(hW.sound x hx).1, (hW.sound x hx).2.1⟩, ?_, c, rfl, h2, h3⟩⟩
        intro o ho h0 hh
        exact hW.kept o ho h0 o.path (by simp) hh
      · cases h; exact ⟨rfl, inv_read hW.asc, cacheRight_none _ _, fun h => by cases h⟩
      · cases h; exact ⟨rfl, hi, hc, fun h => by cases h⟩

/-- it works if the paths are allowed and there are not too many -/
theorem readTree_total {env : Env} {s : St} {id : Bytes} {es : List Tree.Entry} (hi : Index.Inv s.idx) (hl : lookupTree s.odb id = .ok es)
    (hg : Good (trees s.odb) (es.map conv)) (hv : ∀ q m i, Has (trees s.odb) (some (es.map conv)) q m i → env.pathValid q = true)
    (hn : ∀ l : List Bytes, l.Nodup → (∀ p ∈ l, ∃ m i, Has (trees s.odb) (some (es.map conv)) p m i) → l.length ≤ 2 ^ 47) :
    ∃ N, ∀ fuel, N ≤ fuel → (readTree env fuel s id es).2 = .ok () := by
  obtain ⟨N1, h1⟩ := treeWalk_total (env := env) hi hg
  obtain ⟨N2, h2⟩ := readRec_total hg
  refine ⟨max N1 N2, fun fuel hf => ?_⟩
  obtain ⟨l, hw⟩ := h1 fuel (by omega) [] es rfl (parse_attr hl) (fun q m i hh => by simpa using hv q m i hh)
  obtain ⟨c, hc⟩ := h2 fuel (by omega) [] id es rfl (parse_attr hl)
  have hW := treeWalk_right hi fuel hw ⟨id, hl⟩ hg
  have hlen : l.length ≤ 2 ^ 47 := by
    have := hn (l.map (·.path)) ?_ ?_
    · simpa using this
    · rw [List.nodup_map_iff_inj_on]
      · intro x hx y hy hxy; exact asc_inj hW.asc hx hy hxy
      · exact hW.asc.imp (fun h heq => by subst heq; exact B.lt_irrefl h)
    · intro p hp
      obtain ⟨x, hx, rfl⟩ := List.mem_map.mp hp
      obtain ⟨-, -, q, hq, hh⟩ := hW.sound x hx
      refine ⟨x.mode, x.id, ?_⟩
      have : x.path = q := by simpa using hq
      rw [this]; exact hh
  obtain ⟨out, hs, -⟩ := Sort.C26_sorts entryCmp_order l hlen
  unfold readTree
  rw [hw]
  simp only [hs, cacheReadTree, hc]

end Verif.IndexTree
