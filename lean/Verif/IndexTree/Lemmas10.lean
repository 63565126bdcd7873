import Verif.IndexTree.Lemmas9
import Verif.IndexTree.Lemmas4
/-! # `git_index_write_tree` -/
namespace Verif.IndexTree
open Spec
open TreeDiff.Spec (At Good Has)

variable {env : Env} {cache : Option Cache}

/-! ## More fuel changes nothing -/

theorem enter_mono {rec rec' : Odb → Bytes → Tree.Bld → List Index.Entry → Res (Bytes × List Index.Entry × Odb)} {odb : Odb} {d : Bytes} {rest : List Index.Entry}
    (h : rec odb d HashMap.init rest ≠ .ub → rec' odb d HashMap.init rest = rec odb d HashMap.init rest) (hn : enter cache rec odb d rest ≠ .ub) :
    enter cache rec' odb d rest = enter cache rec odb d rest := by
  unfold enter at hn ⊢
  split
  · split
    · rfl
    · rename_i c hc hv
      rw [hc] at hn
      simp only [if_neg hv] at hn
      exact h hn
  · rename_i hc
    rw [hc] at hn
    exact h hn

theorem writeLoop_mono (fuel : Nat) : ∀ {odb : Odb} {d : Bytes} {bld : Tree.Bld} {rest : List Index.Entry}, writeLoop env cache fuel odb d bld rest ≠ .ub →
    writeLoop env cache (fuel + 1) odb d bld rest = writeLoop env cache fuel odb d bld rest := by
  induction fuel with
  | zero => intro odb d bld rest h; exact absurd rfl h
  | succ fuel ih =>
    intro odb d bld rest h
    cases rest with
    | nil => rfl
    | cons e es =>
      rw [writeLoop]
      rw [writeLoop] at h ⊢
      by_cases hin : inDir d e.path = true
      · rw [if_neg (not_not_intro hin)] at h
        rw [if_neg (not_not_intro hin), if_neg (not_not_intro hin)]
        cases hk : (fileName d e.path).findIdx? (· = c!"/") with
        | none =>
          rw [hk] at h
          dsimp only at h ⊢
          cases hap : append env odb bld (fileName d e.path) e.id e.mode with
          | ok b => rw [hap] at h; exact ih h
          | err x => rfl
          | ub => rfl
        | some k =>
          rw [hk] at h
          dsimp only at h ⊢
          generalize e.path.take (e.path.length - (fileName d e.path).length + k) = sd at h ⊢
          have hen := enter_mono (cache := cache) (rec := writeLoop env cache fuel) (rec' := writeLoop env cache (fuel + 1)) (odb := odb) (d := sd) (rest := e :: es) (fun h => ih h)
            (by intro hu; rw [hu] at h; exact h rfl)
          rw [hen]
          cases hr : enter cache (writeLoop env cache fuel) odb sd (e :: es) with
          | err x => rfl
          | ub => rfl
          | ok t =>
            obtain ⟨sub, rest1, odb1⟩ := t
            rw [hr] at h
            dsimp only at h ⊢
            cases hap : append env odb1 bld (lastComp sd) sub 0o040000 with
            | ok b => rw [hap] at h; exact ih h
            | err x => rfl
            | ub => rfl
      · rw [if_pos hin, if_pos hin]

theorem writeLoop_mono' {f g : Nat} (hfg : f ≤ g) {odb : Odb} {d : Bytes} {bld : Tree.Bld} {rest : List Index.Entry} (h : writeLoop env cache f odb d bld rest ≠ .ub) :
    writeLoop env cache g odb d bld rest = writeLoop env cache f odb d bld rest := by
  induction hfg with
  | refl => rfl
  | step _ ih => rw [writeLoop_mono _ (by rw [ih]; exact h), ih]

/-! ## An index as a list of files -/

theorem stages_zero {idx : Index.St} (h : Index.hasConflicts idx = false) : ∀ e ∈ idx.entries, e.stage = 0 := by
  intro e he
  unfold Index.hasConflicts at h
  rw [List.any_eq_false] at h
  have := h e he
  simpa using this

theorem asc_of_inv {idx : Index.St} (hi : Index.Inv idx) (h : ∀ e ∈ idx.entries, e.stage = 0) : Asc idx.entries :=
  hi.sorted.imp_of_mem (fun ha hb hab => path_of_entryCmp hab ((h _ ha).trans (h _ hb).symm))

theorem fitA_of {idx : Index.St} (hi : Index.Inv idx) (hf : Fit idx) (h : ∀ e ∈ idx.entries, e.stage = 0) : FitA idx.entries :=
  ⟨asc_of_inv hi h, fun e he => (hf.path e he).1, fun e he => (hf.path e he).2, hf.id, hf.mode, fun x hx y hy r hr => hf.noClash x hx y hy ⟨r, hr⟩, hf.size⟩

theorem filesIn_iff {idx : Index.St} (h : ∀ e ∈ idx.entries, e.stage = 0) (d p : Bytes) (m : Nat) (i : Bytes) : filesIn idx d p m i ↔ filesP idx.entries (pre d) p m i := by
  unfold filesIn filesP
  constructor
  · rintro ⟨e, h1, -, h2⟩; exact ⟨e, h1, h2⟩
  · rintro ⟨e, h1, h2⟩; exact ⟨e, h1, h e h1, h2⟩

theorem represents_id {odb : Odb} (hh : Hashed env odb) {id : Bytes} {f : Bytes → Nat → Bytes → Prop} (h : Represents odb id f) :
    id.length = 20 ∧ NotNull id ∧ ∃ b, readObj odb id = some b := by
  obtain ⟨es, h1, -⟩ := h
  obtain ⟨es', h2, -⟩ := lookup_of_trees h1
  unfold lookupTree at h2
  split at h2
  · cases h2
  · rename_i b hb
    have := hh.1 _ (readObj_mem hb)
    dsimp only at this
    rw [this]
    exact ⟨(hh.2 b).1, (hh.2 b).2, b, this ▸ hb⟩

/-- every valid node is that of a tidy tree -/
def TidyCache (odb : Odb) (cache : Option Cache) : Prop :=
  (∀ c, cache = some c → 0 ≤ c.count → Tidy odb c.oid) ∧ ∀ d c, cacheGet cache d = some c → 0 ≤ c.count → Tidy odb c.oid

theorem tidyCache_none (odb : Odb) : TidyCache odb none :=
  ⟨fun _ h => (Option.some_ne_none _ h.symm).elim, fun _ _ h => (Option.some_ne_none _ h.symm).elim⟩

theorem tidyCache_append {odb : Odb} {cache : Option Cache} (ext : Odb) (h : TidyCache odb cache) : TidyCache (odb ++ ext) cache :=
  ⟨fun c h1 h2 => tidy_append ext (h.1 c h1 h2), fun d c h1 h2 => tidy_append ext (h.2 d c h1 h2)⟩

theorem tidyCache_read {odb : Odb} {fuel : Nat} {id : Bytes} {es : List Tree.Entry} {c : Cache} (h : cacheReadTree odb fuel id es = .ok c) (hl : lookupTree odb id = .ok es)
    (ht : Tidy odb id) : TidyCache odb (some c) := by
  have key := readRec_tidy fuel h hl ht
  refine ⟨?_, ?_⟩
  · intro c' hc' _; cases hc'; exact key [] c rfl
  · intro d c' hg _; exact key (parts d) c' hg

theorem tidyCache_invalidate {odb : Odb} (ps : List Bytes) : ∀ {cache : Option Cache}, TidyCache odb cache → TidyCache odb (ps.foldl invalidate cache) := by
  induction ps with
  | nil => intro cache h; exact h
  | cons p ps ih =>
    intro cache h
    apply ih
    refine ⟨?_, ?_⟩
    · intro c hc hv
      cases cache with
      | none => simp [invalidate] at hc
      | some c0 =>
        simp only [invalidate, Option.map_some, Option.some.injEq] at hc
        subst hc
        rw [invalidateParts_count] at hv
        omega
    · intro d c hg hv
      obtain ⟨c0, g1, g2, g3, -⟩ := cacheGet_invalidate hg hv
      rw [← g2]; exact h.2 d c0 g1 g3

theorem cacheRight_append {odb : Odb} {idx : Index.St} {cache : Option Cache} (ext : Odb) (h : CacheRight odb idx cache) : CacheRight (odb ++ ext) idx cache :=
  ⟨fun c h1 h2 => represents_append ext (h.1 c h1 h2), fun d c h0 h1 h2 => represents_append ext (h.2.1 d c h0 h1 h2), h.2.2⟩

theorem hashed_grows {odb odb' : Odb} (hh : Hashed env odb) (h : Grows env odb odb') : Hashed env odb' := by
  obtain ⟨ext, rfl, hx⟩ := h
  refine ⟨?_, hh.2⟩
  intro o ho
  rcases List.mem_append.mp ho with h | h
  · exact hh.1 o h
  · exact hx o h

theorem cacheP {odb : Odb} {idx : Index.St} (hs : ∀ e ∈ idx.entries, e.stage = 0) (hc : CacheRight odb idx cache) (d : Bytes) (c : Cache) (h1 : cacheGet cache d = some c)
    (h2 : 0 ≤ c.count) : Represents odb c.oid (filesP idx.entries (pre d)) := by
  have hd : d ≠ [] := by rintro rfl; rw [hc.2.2] at h1; cases h1
  exact represents_congr (hc.2.1 d c hd h1 h2) (fun p m i => filesIn_iff hs d p m i)

/-- what is there after `git_index_write_tree` -/
structure WriteOk (env : Env) (s s' : St) (id : Bytes) : Prop where
  files : Represents s'.odb id (filesIn s.idx [])
  tidy : TidyCache s.odb s.cache → Tidy s'.odb id
  again : ∃ c, s'.cache = some c ∧ 0 ≤ c.count ∧ c.oid = id

theorem writeAll_right {fuel : Nat} {s s' : St} {r : Res Bytes} (hi : Index.Inv s.idx) (hh : Hashed env s.odb) (hc : CacheRight s.odb s.idx s.cache)
    (hf : Fit s.idx) (hs : ∀ e ∈ s.idx.entries, e.stage = 0) (h : writeAll env fuel s = (s', r)) (hcl : Collisionless s'.odb) :
    s'.idx = s.idx ∧ Grows env s.odb s'.odb ∧ CacheRight s'.odb s'.idx s'.cache ∧ (TidyCache s.odb s.cache → TidyCache s'.odb s'.cache) ∧ (∀ id, r = .ok id → WriteOk env s s' id) := by
  unfold writeAll at h
  split at h
  · cases h
    exact ⟨rfl, Grows.refl, cacheRight_none _ _, fun _ => tidyCache_none _, fun _ h => by cases h⟩
  · cases h
    exact ⟨rfl, Grows.refl, hc, fun h => h, fun _ h => by cases h⟩
  · rename_i id rest' odb' hen
    have hcn : cacheGet s.cache [] = none := hc.2.2
    have hw : writeLoop env s.cache fuel s.odb [] HashMap.init s.idx.entries = .ok (id, rest', odb') := by
      rcases enter_cases hen with ⟨c, h1, -⟩ | h1
      · rw [hcn] at h1; cases h1
      · exact h1
    have hg : Grows env s.odb odb' := writeLoop_grows fuel hw
    have hA := fitA_of hi hf hs
    have hkey : Collisionless odb' → Represents odb' id (filesIn s.idx []) ∧ (TidyCache s.odb s.cache → Tidy odb' id) := by
      intro hcl
      obtain ⟨⟨h1, h2, -⟩, -⟩ := writeLoop_right (T := TidyCache s.odb s.cache) hA (fun b => (hh.2 b).1) fuel (d := []) (c := fun _ => none)
        (fun d c h1 h2 => ⟨cacheP hs hc d c h1 h2, (represents_id hh (cacheP hs hc d c h1 h2)).1, fun t => t.2 d c h1 h2⟩)
        ⟨brel_init, by simp [HashMap.init], List.suffix_refl _, .inl rfl, fun x hx _ _ => .inl hx, fun _ _ _ _ => rfl, fun _ _ _ h => by cases h⟩ hw hcl
      exact ⟨represents_congr h1 (fun p m i => (filesIn_iff hs [] p m i).symm), h2⟩
    have hodb : s'.odb = odb' ∧ s'.idx = s.idx := by
      split at h
      · cases h; exact ⟨rfl, rfl⟩
      · cases h; exact ⟨rfl, rfl⟩
      · split at h <;> cases h <;> exact ⟨rfl, rfl⟩
    rw [hodb.1] at hcl
    obtain ⟨k1, k2⟩ := hkey hcl
    refine ⟨hodb.2, hodb.1 ▸ hg, ?_⟩
    split at h
    · cases h; exact ⟨cacheRight_none _ _, fun _ => tidyCache_none _, fun _ h => by cases h⟩
    · cases h; exact ⟨cacheRight_none _ _, fun _ => tidyCache_none _, fun _ h => by cases h⟩
    · rename_i es hl
      split at h
      · rename_i c hrd
        cases h
        have k1' := k1
        obtain ⟨ts, t1, t2, t3⟩ := k1
        have := trees_of_lookup hl
        rw [t1] at this; cases this
        obtain ⟨r1, r2, r3⟩ := cacheRight_read hrd hl t2 t3
        refine ⟨r1, fun ht => tidyCache_read hrd hl (k2 ht), ?_⟩
        intro id' hid
        cases hid
        exact ⟨k1', k2, c, rfl, r3, r2⟩
      · cases h; exact ⟨cacheRight_none _ _, fun _ => tidyCache_none _, fun _ h => by cases h⟩
      · cases h; exact ⟨cacheRight_none _ _, fun _ => tidyCache_none _, fun _ h => by cases h⟩

theorem writeIndex_right {fuel : Nat} {s s' : St} {r : Res Bytes} (hi : Index.Inv s.idx) (hh : Hashed env s.odb) (hc : CacheRight s.odb s.idx s.cache)
    (hf : Fit s.idx) (h : writeIndex env fuel s = (s', r)) (hcl : Collisionless s'.odb) :
    s'.idx = s.idx ∧ Grows env s.odb s'.odb ∧ CacheRight s'.odb s'.idx s'.cache ∧ (TidyCache s.odb s.cache → TidyCache s'.odb s'.cache) ∧ (∀ id, r = .ok id → WriteOk env s s' id) := by
  unfold writeIndex at h
  by_cases hcf : Index.hasConflicts s.idx = true
  · rw [if_pos hcf] at h
    cases h
    exact ⟨rfl, Grows.refl, hc, fun h => h, fun _ h => by cases h⟩
  · rw [if_neg hcf] at h
    have hs := stages_zero (by simpa using hcf)
    split at h
    · rename_i c hca
      split at h
      · rename_i hv
        cases h
        refine ⟨rfl, Grows.refl, hc, fun h => h, ?_⟩
        intro id hid
        cases hid
        exact ⟨hc.1 c hca hv, fun ht => ht.1 c hca hv, c, hca, hv, rfl⟩
      · exact writeAll_right hi hh hc hf hs h hcl
    · exact writeAll_right hi hh hc hf hs h hcl

theorem writeIndex_total {s : St} (hi : Index.Inv s.idx) (hh : Hashed env s.odb) (hc : CacheRight s.odb s.idx s.cache) (hf : Fit s.idx) (ha : Acceptable env s.idx)
    (hcf : Index.hasConflicts s.idx = false) : ∃ N, ∀ fuel, N ≤ fuel → Collisionless (writeIndex env fuel s).1.odb → ∃ id, (writeIndex env fuel s).2 = .ok id := by
  have hs := stages_zero hcf
  have hA := fitA_of hi hf hs
  have hac : AccA env s.idx.entries := ⟨fun e he => by
    have := ha.mode e he
    unfold Index.Spec.StoredMode at this
    unfold Tree.validFilemode
    simp only [decide_eq_true_eq]
    exact .inr this, ha.name, ha.id, ha.obj⟩
  have hall : ∃ N, ∀ fuel, N ≤ fuel → Collisionless (writeAll env fuel s).1.odb → ∃ id, (writeAll env fuel s).2 = .ok id := by
    have hd := writeLoop_done (cache := s.cache) hA hac (fun b => (hh.2 b).2) (M := 65535) hA.len (s.idx.entries.length + 2 * 65535 + 1) (odb := s.odb) (d := [])
      (bld := HashMap.init) (c := fun _ => none) (rest := s.idx.entries)
      (fun d c h1 h2 => ⟨(represents_id hh (cacheP hs hc d c h1 h2)).2.2, (represents_id hh (cacheP hs hc d c h1 h2)).2.1⟩) brel_init (by intro n m i h; cases h)
      (by simp [HashMap.init]) (List.suffix_refl _) (by simp [pre])
    obtain ⟨id, rest', odb', hw, -⟩ := hd
    have hrt : Collisionless odb' → ∃ es, lookupTree odb' id = .ok es ∧ Good (trees odb') (es.map conv) := by
      intro hcl
      obtain ⟨⟨h1, -⟩, -⟩ := writeLoop_right (T := False) hA (fun b => (hh.2 b).1) _ (d := []) (c := fun _ => none)
        (fun d c h1 h2 => ⟨cacheP hs hc d c h1 h2, (represents_id hh (cacheP hs hc d c h1 h2)).1, fun t => t.elim⟩)
        ⟨brel_init, by simp [HashMap.init], List.suffix_refl _, .inl rfl, fun x hx _ _ => .inl hx, fun _ _ _ _ => rfl, fun _ _ _ h => by cases h⟩ hw hcl
      obtain ⟨ts, t1, t2, -⟩ := h1
      obtain ⟨es, l1, rfl⟩ := lookup_of_trees t1
      exact ⟨es, l1, t2⟩
    have hen : ∀ fuel, s.idx.entries.length + 2 * 65535 + 1 ≤ fuel → enter s.cache (writeLoop env s.cache fuel) s.odb [] s.idx.entries = .ok (id, rest', odb') := by
      intro fuel hfl
      unfold enter
      rw [hc.2.2]
      dsimp only
      rw [writeLoop_mono' hfl (by rw [hw]; simp), hw]
    by_cases hcl : Collisionless odb'
    · obtain ⟨es, hl, hg⟩ := hrt hcl
      obtain ⟨N, hN⟩ := readRec_total hg
      refine ⟨max N (s.idx.entries.length + 2 * 65535 + 1), fun fuel hfl _ => ?_⟩
      obtain ⟨c, hc'⟩ := hN fuel (by omega) [] id es rfl (parse_attr hl)
      refine ⟨id, ?_⟩
      unfold writeAll
      rw [hen fuel (by omega)]
      simp only [hl, cacheReadTree, hc']
    · refine ⟨s.idx.entries.length + 2 * 65535 + 1, fun fuel hfl hcl' => ?_⟩
      exfalso
      apply hcl
      unfold writeAll at hcl'
      rw [hen fuel hfl] at hcl'
      dsimp only at hcl'
      split at hcl'
      · exact hcl'
      · exact hcl'
      · split at hcl' <;> exact hcl'
  unfold writeIndex
  rw [hcf]
  simp only [Bool.false_eq_true, if_false]
  split
  · split
    · rename_i c _ _
      exact ⟨0, fun _ _ _ => ⟨c.oid, rfl⟩⟩
    · exact hall
  · exact hall

/-! ## Histories -/

theorem reach_inv {tidy : Bool} {ienv : Index.Env} {s : St} (h : Reach tidy env ienv s) :
    Index.Inv s.idx ∧ Hashed env s.odb ∧ CacheRight s.odb s.idx s.cache ∧ (tidy = true → TidyCache s.odb s.cache) := by
  induction h with
  | start hh => exact ⟨Index.inv_init, hh, cacheRight_none _ _, fun _ => tidyCache_none _⟩
  | @index s s' op _ hst ih =>
    obtain ⟨h1, h2, h3⟩ := cacheRight_step ienv ih.1 ih.2.2.1 hst
    refine ⟨h1, h3 ▸ ih.2.1, h2, ?_⟩
    intro ht
    have := ih.2.2.2 ht
    rw [indexStep] at hst
    split at hst
    · cases hst
      cases op with
      | clear => exact tidyCache_none _
      | _ => exact tidyCache_invalidate _ this
    · cases hst
  | write _ hf hw hcl ih =>
    obtain ⟨h1, h2, h3, h4, -⟩ := writeIndex_right ih.1 ih.2.1 ih.2.2.1 hf hw hcl
    exact ⟨h1 ▸ ih.1, hashed_grows ih.2.1 h2, h3, fun t => h4 (ih.2.2.2 t)⟩
  | @read s s' fuel id es r _ hl hg ht hr ih =>
    obtain ⟨h1, h2, h3, -⟩ := readTree_right ih.1 ih.2.2.1 hl hg hr
    refine ⟨h2, h1 ▸ ih.2.1, h3, ?_⟩
    intro t
    have h5 := ih.2.2.2 t
    unfold readTree at hr
    split at hr
    · cases hr; exact tidyCache_none _
    · cases hr; exact h5
    · split at hr
      · cases hr; exact tidyCache_none _
      · cases hr; exact h5
      · split at hr
        · rename_i c hrd
          cases hr; exact tidyCache_read hrd hl (ht t)
        · cases hr; exact tidyCache_none _
        · cases hr; exact h5
  | others _ hx ih =>
    exact ⟨ih.1, hashed_grows ih.2.1 ⟨_, rfl, hx⟩, cacheRight_append _ ih.2.2.1, fun t => tidyCache_append _ (ih.2.2.2 t)⟩

end Verif.IndexTree
