import Verif.IndexTree.Lemmas1
/-! # The tree cache -/
namespace Verif.IndexTree
open Spec
open TreeDiff.Spec (At Good Has)

theorem invalidateParts_name (c : Cache) (ws : List Bytes) : (invalidateParts c ws).name = c.name := by
  cases c with
  | mk n k o cs =>
    rcases ws with _ | ⟨w, _ | ⟨v, ws⟩⟩ <;> rfl

theorem invalidateParts_count (c : Cache) (ws : List Bytes) : (invalidateParts c ws).count = -1 := by
  cases c with
  | mk n k o cs =>
    rcases ws with _ | ⟨w, _ | ⟨v, ws⟩⟩ <;> rfl

theorem findChild_change {f : Cache → Cache} (hf : ∀ c, (f c).name = c.name) (v w : Bytes) (cs : List Cache) :
    findChild v (changeChild w f cs) = if v = w then (findChild v cs).map f else findChild v cs := by
  induction cs with
  | nil => simp [changeChild, findChild]
  | cons c cs ih =>
    unfold changeChild
    by_cases hw : c.name = w
    · rw [if_pos hw]
      unfold findChild
      rw [hf]
      by_cases hv : v = w
      · subst hv; simp [hw]
      · rw [if_neg hv]
        have : ¬ c.name = v := fun h => hv (h ▸ hw)
        simp [this]
    · rw [if_neg hw]
      unfold findChild
      by_cases hv : c.name = v
      · rw [if_pos hv, if_pos hv]
        have : ¬ v = w := fun h => hw (hv.trans h)
        rw [if_neg this]
      · rw [if_neg hv, if_neg hv, ih]

/-- A node that is valid afterwards was valid, and it is not on the way to the path. -/
theorem getParts_invalidate (vs : List Bytes) : ∀ {c : Cache} {ws : List Bytes} {c' : Cache}, getParts (invalidateParts c ws) vs = some c' → 0 ≤ c'.count →
    ∃ c0, getParts c vs = some c0 ∧ c0.oid = c'.oid ∧ 0 ≤ c0.count ∧ ¬ vs <+: ws.dropLast := by
  induction vs with
  | nil =>
    intro c ws c' h h0
    rw [getParts] at h
    cases h
    rw [invalidateParts_count] at h0
    exact absurd h0 (by decide)
  | cons v vs ih =>
    intro c ws c' h h0
    obtain ⟨n, k, o, cs⟩ := c
    rcases ws with _ | ⟨w, _ | ⟨u, ws⟩⟩
    · exact ⟨c', h, rfl, h0, by simp⟩
    · exact ⟨c', h, rfl, h0, by simp⟩
    · rw [getParts] at h ⊢
      simp only [invalidateParts, Cache.children] at h ⊢
      rw [findChild_change (fun c => invalidateParts_name c _)] at h
      rw [List.dropLast_cons_of_ne_nil (by simp), List.cons_prefix_cons]
      by_cases hv : v = w
      · rw [if_pos hv] at h
        cases hf : findChild v cs with
        | none => rw [hf] at h; cases h
        | some ch =>
          rw [hf] at h
          obtain ⟨c0, h1, h2, h3, h4⟩ := ih h h0
          exact ⟨c0, h1, h2, h3, fun hc => h4 hc.2⟩
      · rw [if_neg hv] at h
        cases hf : findChild v cs with
        | none => rw [hf] at h; cases h
        | some ch =>
          rw [hf] at h
          exact ⟨c', h, rfl, h0, fun hc => hv hc.1⟩

theorem parts_ne (p : Bytes) : parts p ≠ [] := by
  cases p with
  | nil => simp [parts]
  | cons c cs =>
    unfold parts
    split
    · simp
    · split <;> simp

theorem parts_slash (d r : Bytes) : parts (d ++ c!"/" :: r) = parts d ++ parts r := by
  induction d with
  | nil => simp [parts]
  | cons c d ih =>
    rw [List.cons_append, parts, parts]
    split
    · rw [ih]; rfl
    · rw [ih]
      cases hp : parts d with
      | nil => exact absurd hp (parts_ne d)
      | cons w ws => rfl

theorem parts_prefix {d p : Bytes} (hd : d ≠ []) (h : pre d <+: p) : parts d <+: (parts p).dropLast := by
  obtain ⟨r, rfl⟩ := h
  rw [pre, if_neg hd, List.append_assoc, List.singleton_append, parts_slash, List.dropLast_append_of_ne_nil (parts_ne r)]
  exact List.prefix_append _ _

/-- the directory with these parts, as a prefix -/
def dirOf (ws : List Bytes) : Bytes := ws.flatMap (fun w => w ++ b!"/")

theorem dirOf_parts (d : Bytes) : dirOf (parts d) = d ++ b!"/" := by
  induction d with
  | nil => rfl
  | cons c d ih =>
    rw [parts]
    split
    · rename_i hc
      subst hc
      unfold dirOf at ih ⊢
      rw [List.flatMap_cons, ih]
      simp
    · cases hp : parts d with
      | nil => exact absurd hp (parts_ne d)
      | cons w ws =>
        rw [hp] at ih
        unfold dirOf at ih ⊢
        rw [List.flatMap_cons] at ih
        simp only [List.flatMap_cons, List.cons_append]
        rw [ih]

theorem dirOf_pre {d : Bytes} (h : d ≠ []) : dirOf (parts d) = pre d := by rw [dirOf_parts, pre, if_neg h]

theorem cacheGet_invalidate {cache : Option Cache} {p d : Bytes} {c' : Cache} (h : cacheGet (invalidate cache p) d = some c') (h0 : 0 ≤ c'.count) :
    ∃ c0, cacheGet cache d = some c0 ∧ c0.oid = c'.oid ∧ 0 ≤ c0.count ∧ (d ≠ [] → ¬ pre d <+: p) := by
  cases cache with
  | none => cases h
  | some c =>
    obtain ⟨c0, h1, h2, h3, h4⟩ := getParts_invalidate (parts d) (c := c) (ws := parts p) h h0
    exact ⟨c0, h1, h2, h3, fun hd hp => h4 (parts_prefix hd hp)⟩

theorem cacheGet_nil {cache : Option Cache} {p : Bytes} (h : cacheGet cache [] = none) : cacheGet (invalidate cache p) [] = none := by
  cases cache with
  | none => rfl
  | some c =>
    show getParts (invalidateParts c (parts p)) [[]] = none
    have h : getParts c [[]] = none := h
    obtain ⟨n, k, o, cs⟩ := c
    have h' : findChild [] cs = none := by
      rw [getParts] at h
      simp only [Cache.children] at h
      cases hf : findChild [] cs with
      | none => rfl
      | some ch => rw [hf] at h; cases h
    rw [getParts]
    rcases parts p with _ | ⟨w, _ | ⟨u, ws⟩⟩
    · simp [invalidateParts, Cache.children, h']
    · simp [invalidateParts, Cache.children, h']
    · simp only [invalidateParts, Cache.children]
      rw [findChild_change (fun c => invalidateParts_name c _), h']
      simp

/-- Invalidating the paths whose files change keeps the cache right. -/
theorem cacheRight_change {odb : Odb} {idx idx' : Index.St} {cache : Option Cache} (h : CacheRight odb idx cache) {ps : List Bytes}
    (hch : ∀ p, p ∉ ps → ∀ m i, filesIn idx [] p m i ↔ filesIn idx' [] p m i) : CacheRight odb idx' (ps.foldl invalidate cache) := by
  have key : ∀ ps cache, (∀ c, cache = some c → 0 ≤ c.count → Represents odb c.oid (filesIn idx [])) ∧
      (∀ d c, d ≠ [] → cacheGet cache d = some c → 0 ≤ c.count → Represents odb c.oid (filesIn idx d)) ∧ cacheGet cache [] = none →
      (∀ c, ps.foldl invalidate cache = some c → 0 ≤ c.count → Represents odb c.oid (filesIn idx []) ∧ ps = []) ∧
      (∀ d c, d ≠ [] → cacheGet (ps.foldl invalidate cache) d = some c → 0 ≤ c.count → Represents odb c.oid (filesIn idx d) ∧ ∀ p ∈ ps, ¬ pre d <+: p) ∧
      cacheGet (ps.foldl invalidate cache) [] = none := by
    intro ps
    induction ps using list_snoc_induction with
    | hnil => intro cache h; exact ⟨fun c hc h0 => ⟨h.1 c hc h0, rfl⟩, fun d c hd hc h0 => ⟨h.2.1 d c hd hc h0, by simp⟩, h.2.2⟩
    | hsnoc ps p ih =>
      intro cache h
      obtain ⟨g1, g2, g3⟩ := ih cache h
      rw [List.foldl_append]
      simp only [List.foldl_cons, List.foldl_nil]
      refine ⟨?_, ?_, cacheGet_nil g3⟩
      · intro c hc h0
        cases hx : ps.foldl invalidate cache with
        | none => rw [hx] at hc; cases hc
        | some c1 =>
          rw [hx] at hc
          simp only [invalidate, Option.map_some, Option.some.injEq] at hc
          subst hc
          rw [invalidateParts_count] at h0
          exact absurd h0 (by decide)
      · intro d c hd hc h0
        obtain ⟨c0, a1, a2, a3, a4⟩ := cacheGet_invalidate hc h0
        obtain ⟨b1, b2⟩ := g2 d c0 hd a1 a3
        refine ⟨a2 ▸ b1, ?_⟩
        intro q hq
        rcases List.mem_append.mp hq with hq | hq
        · exact b2 q hq
        · rw [List.mem_singleton.mp hq]; exact a4 hd
  obtain ⟨g1, g2, g3⟩ := key ps cache h
  have hpre : ∀ d, filesIn idx d = fun p m i => filesIn idx [] (pre d ++ p) m i := by intro d; funext p m i; simp [filesIn, pre]
  have hpre' : ∀ d, filesIn idx' d = fun p m i => filesIn idx' [] (pre d ++ p) m i := by intro d; funext p m i; simp [filesIn, pre]
  refine ⟨?_, ?_, g3⟩
  · intro c hc h0
    obtain ⟨a1, a2⟩ := g1 c hc h0
    subst a2
    exact represents_congr a1 (fun p m i => hch p (by simp) m i)
  · intro d c hd hc h0
    obtain ⟨a1, a2⟩ := g2 d c hd hc h0
    rw [hpre d] at a1
    rw [hpre' d]
    refine represents_congr a1 (fun p m i => ?_)
    exact hch (pre d ++ p) (fun hmem => a2 _ hmem (List.prefix_append _ _)) m i

/-! ## The cache of a tree -/

theorem has_sub {store : TreeDiff.Store} {es sub : List TreeDiff.Entry} (hg : Good store es) {d : TreeDiff.Entry} (hd : d ∈ es) (ht : d.isTree = true) (hs : store d.id = some sub)
    (p : Bytes) (m : Nat) (i : Bytes) : Has store (some es) (d.name ++ b!"/" ++ p) m i ↔ Has store (some sub) p m i := by
  have hc := TreeDiff.good_canonical hg
  constructor
  · rintro ⟨es', e, he, hat, hf, hm, hi⟩
    cases he
    generalize hq : d.name ++ b!"/" ++ p = q at hat
    cases hat with
    | here hm' =>
      exfalso
      have hk : TreeDiff.Spec.key e = e.name := by unfold TreeDiff.Spec.key; rw [hf]; rfl
      rw [hk] at hq
      apply (hc.1 e hm').2.1
      rw [← hq]; simp
    | @inside _ sub' d' _ p' hd' hdt' hs' hat' =>
      have hc1 : comp (d.name ++ b!"/" ++ p) = d.name := comp_dir (hc.1 d hd).2.1 p
      have hc2 : comp (d'.name ++ b!"/" ++ p') = d'.name := comp_dir (hc.1 d' hd').2.1 p'
      have hn : d.name = d'.name := by rw [← hc1, ← hc2, hq]
      have hp : p = p' := by rw [hn] at hq; exact List.append_cancel_left hq
      subst hp
      have hdd : d = d' := by
        have hk : TreeDiff.Spec.key d = TreeDiff.Spec.key d' := by simp [TreeDiff.Spec.key, ht, hdt', hn]
        clear hs hs' hat' hq hc1 hc2 hn
        have hp := hc.2
        clear hc hg
        induction es with
        | nil => cases hd
        | cons a es ih =>
          have hp' := List.pairwise_cons.mp hp
          rcases List.mem_cons.mp hd with h1 | h1
          · rcases List.mem_cons.mp hd' with h2 | h2
            · rw [h1, h2]
            · exact absurd (hp'.1 d' h2) (by rw [← h1, hk]; exact fun h => B.lt_irrefl h)
          · rcases List.mem_cons.mp hd' with h2 | h2
            · exact absurd (hp'.1 d h1) (by rw [← h2, hk]; exact fun h => B.lt_irrefl h)
            · exact ih h1 h2 hp'.2
      subst hdd
      rw [hs] at hs'; cases hs'
      exact ⟨sub, e, rfl, hat', hf, hm, hi⟩
  · rintro ⟨es', e, he, hat, hf, hm, hi⟩
    cases he
    exact ⟨es, e, rfl, .inside hd ht hs hat, hf, hm, hi⟩

theorem lookup_of_trees {odb : Odb} {id : Bytes} {sub : List TreeDiff.Entry} (h : trees odb id = some sub) : ∃ es, lookupTree odb id = .ok es ∧ es.map conv = sub := by
  unfold trees at h
  cases hl : lookupTree odb id with
  | ok es => rw [hl] at h; cases h; exact ⟨es, rfl, rfl⟩
  | err x => rw [hl] at h; cases h
  | ub => rw [hl] at h; cases h

theorem trees_of_lookup {odb : Odb} {id : Bytes} {es : List Tree.Entry} (h : lookupTree odb id = .ok es) : trees odb id = some (es.map conv) := by
  unfold trees; rw [h]

/-- the modes that the parser gives have 16 bits -/
theorem parse_attr {odb : Odb} {id : Bytes} {es : List Tree.Entry} (h : lookupTree odb id = .ok es) : ∀ e ∈ es, e.attr < 65536 := by
  unfold lookupTree at h
  cases hr : readObj odb id with
  | none => rw [hr] at h; cases h
  | some b =>
    rw [hr] at h
    have ht := (Tree.C09_parse_exact b es).mp h
    have key : ∀ {b : Bytes} {ts : List (Nat × Bytes × Bytes)}, Tree.Spec.TreeText b ts → ∀ t ∈ ts, t.1 < 65536 := by
      intro b ts ht
      induction ht with
      | nil => intro t h; cases h
      | cons hm _ _ _ ih =>
        intro t h
        rcases List.mem_cons.mp h with rfl | h
        · obtain ⟨_, _, _, _, _, hv, _⟩ := hm; exact hv
        · exact ih t h
    intro e he
    exact key ht _ (List.mem_map.mpr ⟨e, he, rfl⟩)

theorem readChildren_inv {odb : Odb} {rd : Bytes → Bytes → List Tree.Entry → Res Cache} : ∀ {es : List Tree.Entry} {n : Int} {cs : List Cache},
    readChildren odb rd es = .ok (n, cs) → (∀ nm i sub c, rd nm i sub = .ok c → 0 ≤ c.count) →
    0 ≤ n ∧ ∀ c ∈ cs, ∃ e ∈ es, e.isTree = true ∧ ∃ sub, lookupTree odb e.oid = .ok sub ∧ rd e.name e.oid sub = .ok c := by
  intro es
  induction es with
  | nil => intro n cs h _; cases h; exact ⟨by decide, by simp⟩
  | cons e es ih =>
    intro n cs h hrd
    unfold readChildren at h
    by_cases ht : e.isTree = true
    · rw [if_neg (not_not_intro ht)] at h
      cases hl : lookupTree odb e.oid with
      | err x => rw [hl] at h; cases h
      | ub => rw [hl] at h; cases h
      | ok sub =>
        rw [hl] at h
        dsimp only at h
        cases hr : rd e.name e.oid sub with
        | err x => rw [hr] at h; cases h
        | ub => rw [hr] at h; cases h
        | ok c =>
          rw [hr] at h
          dsimp only at h
          cases hc : readChildren odb rd es with
          | err x => rw [hc] at h; cases h
          | ub => rw [hc] at h; cases h
          | ok t =>
            obtain ⟨n1, cs1⟩ := t
            rw [hc] at h
            cases h
            obtain ⟨h1, h2⟩ := ih hc hrd
            refine ⟨by have := hrd _ _ _ _ hr; omega, ?_⟩
            intro c' hc'
            rcases List.mem_cons.mp hc' with rfl | hc'
            · exact ⟨e, by simp, ht, sub, hl, hr⟩
            · obtain ⟨e', he', r⟩ := h2 c' hc'
              exact ⟨e', by simp [he'], r⟩
    · rw [if_pos ht] at h
      cases hc : readChildren odb rd es with
      | err x => rw [hc] at h; cases h
      | ub => rw [hc] at h; cases h
      | ok t =>
        obtain ⟨n1, cs1⟩ := t
        rw [hc] at h
        cases h
        obtain ⟨h1, h2⟩ := ih hc hrd
        refine ⟨by omega, ?_⟩
        intro c' hc'
        obtain ⟨e', he', r⟩ := h2 c' hc'
        exact ⟨e', by simp [he'], r⟩

theorem readRec_fields {odb : Odb} {fuel : Nat} : ∀ {nm id : Bytes} {es : List Tree.Entry} {c : Cache}, readRec odb fuel nm id es = .ok c → c.name = nm ∧ c.oid = id ∧ 0 ≤ c.count := by
  induction fuel with
  | zero => intro nm id es c h; cases h
  | succ fuel ih =>
    intro nm id es c h
    unfold readRec at h
    cases hc : readChildren odb (readRec odb fuel) es with
    | err x => rw [hc] at h; cases h
    | ub => rw [hc] at h; cases h
    | ok t =>
      obtain ⟨n, cs⟩ := t
      rw [hc] at h
      cases h
      exact ⟨rfl, rfl, (readChildren_inv hc (fun _ _ _ _ h => (ih h).2.2)).1⟩

theorem findChild_mem {w : Bytes} {cs : List Cache} {c : Cache} (h : findChild w cs = some c) : c ∈ cs ∧ c.name = w := by
  induction cs with
  | nil => cases h
  | cons a cs ih =>
    unfold findChild at h
    split at h
    · rename_i ha; cases h; exact ⟨by simp, ha⟩
    · exact ⟨List.mem_cons_of_mem _ (ih h).1, (ih h).2⟩

/-- The nodes of the cache that is read from a tree are its subdirectories. -/
theorem readRec_right {odb : Odb} (fuel : Nat) : ∀ {nm id : Bytes} {es : List Tree.Entry} {c : Cache}, readRec odb fuel nm id es = .ok c → lookupTree odb id = .ok es →
    Good (trees odb) (es.map conv) → (findChild [] c.children = none) ∧ ∀ ws c', getParts c ws = some c' →
      Represents odb c'.oid (fun p m i => Has (trees odb) (some (es.map conv)) (dirOf ws ++ p) m i) := by
  induction fuel with
  | zero => intro nm id es c h; cases h
  | succ fuel ih =>
    intro nm id es c h hl hg
    have hcan := TreeDiff.good_canonical hg
    have hfields := readRec_fields h
    unfold readRec at h
    cases hc : readChildren odb (readRec odb fuel) es with
    | err x => rw [hc] at h; cases h
    | ub => rw [hc] at h; cases h
    | ok t =>
      obtain ⟨n, cs⟩ := t
      rw [hc] at h
      obtain ⟨_, hch⟩ := readChildren_inv hc (fun _ _ _ _ h => (readRec_fields h).2.2)
      cases h
      constructor
      · cases hf : findChild [] (Cache.mk nm n id cs).children with
        | none => rfl
        | some ch =>
          obtain ⟨h1, h2⟩ := findChild_mem hf
          obtain ⟨e, he, _, sub, _, hr⟩ := hch ch h1
          have := (readRec_fields hr).1
          rw [h2] at this
          exact absurd this.symm (hcan.1 (conv e) (List.mem_map.mpr ⟨e, he, rfl⟩)).1
      · intro ws c' hgp
        cases ws with
        | nil =>
          cases hgp
          exact ⟨es.map conv, trees_of_lookup hl, hg, fun p m i => by simp [dirOf]⟩
        | cons w ws =>
          rw [getParts] at hgp
          cases hf : findChild w (Cache.mk nm n id cs).children with
          | none => rw [hf] at hgp; cases hgp
          | some ch =>
            rw [hf] at hgp
            obtain ⟨h1, h2⟩ := findChild_mem hf
            obtain ⟨e, he, het, sub, hls, hr⟩ := hch ch h1
            have hnm := (readRec_fields hr).1
            have hm : conv e ∈ es.map conv := List.mem_map.mpr ⟨e, he, rfl⟩
            have hct : (conv e).isTree = true := by
              have ha := parse_attr hl e he
              rw [Tree.isTree_iff e ha] at het
              unfold conv TreeDiff.Entry.isTree TreeDiff.modeType
              have : e.attr / 0o10000 % 16 = e.attr / 4096 := Nat.mod_eq_of_lt (by omega)
              simpa [this] using het
            have hst : trees odb (conv e).id = some (sub.map conv) := trees_of_lookup hls
            obtain ⟨_, hrec⟩ := ih hr hls (TreeDiff.good_sub hg hm hct hst)
            refine represents_congr (hrec ws c' hgp) (fun p m i => ?_)
            rw [← has_sub hg hm hct hst]
            have : (conv e).name = w := by rw [← h2, hnm]; rfl
            rw [this]
            simp [dirOf]

/-- Reading the cache of a tree that is there succeeds. -/
theorem readRec_total {odb : Odb} {ts : List TreeDiff.Entry} (hg : Good (trees odb) ts) : ∃ N, ∀ fuel, N ≤ fuel → ∀ (nm id : Bytes) (es : List Tree.Entry), es.map conv = ts →
    (∀ e ∈ es, e.attr < 65536) → ∃ c, readRec odb fuel nm id es = .ok c := by
  induction hg with
  | @mk ts hc hs hgs ih =>
    have key : ∀ l : List TreeDiff.Entry, (∀ d ∈ l, d ∈ ts) → ∃ N, ∀ fuel, N ≤ fuel → ∀ es : List Tree.Entry, es.map conv = l → (∀ e ∈ es, e.attr < 65536) →
        ∃ t, readChildren odb (readRec odb fuel) es = .ok t := by
      intro l
      induction l with
      | nil =>
        intro _
        refine ⟨0, fun fuel _ es he _ => ?_⟩
        rw [List.map_eq_nil_iff] at he
        subst he
        exact ⟨_, rfl⟩
      | cons d l ihl =>
        intro hl
        obtain ⟨N1, hN1⟩ := ihl (fun x hx => hl x (by simp [hx]))
        have hdts := hl d (by simp)
        have hsub : ∃ N, ∀ fuel, N ≤ fuel → ∀ e : Tree.Entry, conv e = d → e.attr < 65536 → e.isTree = true → ∃ sub c, lookupTree odb e.oid = .ok sub ∧ readRec odb fuel e.name e.oid sub = .ok c := by
          by_cases hdt : d.isTree = true
          · cases hx : trees odb d.id with
            | none => exact absurd hx (hs d hdts hdt)
            | some sub =>
              obtain ⟨N, hN⟩ := ih d hdts hdt sub hx
              refine ⟨N, fun fuel hf e he ha ht => ?_⟩
              subst he
              obtain ⟨sub', h1, h2⟩ := lookup_of_trees hx
              obtain ⟨c, hc⟩ := hN fuel hf e.name e.oid sub' h2 (parse_attr h1)
              exact ⟨sub', c, h1, hc⟩
          · refine ⟨0, fun fuel hf e he ha ht => ?_⟩
            subst he
            exfalso
            apply hdt
            rw [Tree.isTree_iff e ha] at ht
            unfold conv TreeDiff.Entry.isTree TreeDiff.modeType
            have : e.attr / 0o10000 % 16 = e.attr / 4096 := Nat.mod_eq_of_lt (by omega)
            simpa [this] using ht
        obtain ⟨N2, hN2⟩ := hsub
        refine ⟨max N1 N2, fun fuel hf es he ha => ?_⟩
        cases es with
        | nil => cases he
        | cons e es =>
          simp only [List.map_cons, List.cons.injEq] at he
          obtain ⟨⟨n, cs⟩, ht⟩ := hN1 fuel (by omega) es he.2 (fun x hx => ha x (by simp [hx]))
          unfold readChildren
          by_cases het : e.isTree = true
          · rw [if_neg (not_not_intro het)]
            obtain ⟨sub, c, h1, h2⟩ := hN2 fuel (by omega) e he.1 (ha e (by simp)) het
            rw [h1]; dsimp only
            rw [h2]; dsimp only
            rw [ht]
            exact ⟨_, rfl⟩
          · rw [if_pos het, ht]
            exact ⟨_, rfl⟩
    obtain ⟨N, hN⟩ := key ts (fun _ h => h)
    refine ⟨N + 1, fun fuel hf nm id es he ha => ?_⟩
    cases fuel with
    | zero => omega
    | succ fuel =>
      obtain ⟨⟨n, cs⟩, ht⟩ := hN fuel (by omega) es he ha
      unfold readRec
      rw [ht]
      exact ⟨_, rfl⟩

end Verif.IndexTree
