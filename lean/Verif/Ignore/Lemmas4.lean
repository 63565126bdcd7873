import Verif.Ignore.Lemmas3
/-! # Paths, the files on the way, and the verdict -/
namespace Verif.Ignore
open Spec (Rule Env readLine readLast Same Globs Undoes addRule Plain PlainEnv readRules Applies Decides Silent lastName dirName fileRules globalRules
  dirPath GoodName Verdict ancestors sources)
open Wildmatch (wildmatch isSpace)

/-! ## Paths -/

theorem dirPath_snoc (ds : List Bytes) (d : Bytes) : dirPath (ds ++ [d]) = dirPath ds ++ d ++ b!"/" := by simp [dirPath]

theorem dirPath_nil : dirPath [] = [] := rfl

theorem dirPath_last (ds : List Bytes) : dirPath ds = [] ∨ ∃ a, dirPath ds = a ++ b!"/" := by
  rcases List.eq_nil_or_concat ds with rfl | ⟨ds', d, rfl⟩
  · exact .inl rfl
  · rw [List.concat_eq_append, dirPath_snoc]; exact .inr ⟨_, rfl⟩

theorem dropWhile_noslash {n : Bytes} (h : c!"/" ∉ n) (r : Bytes) (hr : r = [] ∨ ∃ a, r = c!"/" :: a) : (n ++ r).dropWhile (· != c!"/") = r := by
  induction n with
  | nil =>
    rcases hr with rfl | ⟨a, rfl⟩
    · rfl
    · simp
  | cons c n ih =>
    have : c ≠ c!"/" := fun e => h (by simp [e])
    rw [List.cons_append, List.dropWhile_cons_of_pos (by simp [this])]
    exact ih (fun k => h (by simp [k]))

theorem rev_dirPath (ds : List Bytes) : (dirPath ds).reverse = [] ∨ ∃ a, (dirPath ds).reverse = c!"/" :: a := by
  rcases dirPath_last ds with h | ⟨a, h⟩
  · left; rw [h]; rfl
  · right; rw [h]; exact ⟨a.reverse, by simp⟩

theorem dirName_path (ds : List Bytes) {n : Bytes} (h : c!"/" ∉ n) : dirName (dirPath ds ++ n) = dirPath ds := by
  unfold dirName
  rw [List.reverse_append, dropWhile_noslash (by simpa using h) _ (rev_dirPath ds), List.reverse_reverse]

theorem lastName_path (ds : List Bytes) {n : Bytes} (h : c!"/" ∉ n) : lastName (dirPath ds ++ n) = n := by
  have := dirName_append (dirPath ds ++ n)
  rw [dirName_path ds h] at this
  exact List.append_cancel_left this

theorem parentDir_path (ds : List Bytes) {d : Bytes} (h : GoodName d) : parentDir (dirPath (ds ++ [d])) = dirPath ds := by
  unfold parentDir
  rw [dirPath_snoc]
  have e : (dirPath ds ++ d ++ b!"/").reverse = c!"/" :: (d.reverse ++ (dirPath ds).reverse) := by simp
  rw [e, List.dropWhile_cons_of_pos (by simp)]
  have e2 : (d.reverse ++ (dirPath ds).reverse).dropWhile (· == c!"/") = d.reverse ++ (dirPath ds).reverse := by
    obtain ⟨c, t, hc⟩ := List.exists_cons_of_ne_nil (show d.reverse ≠ [] by simpa using h.1)
    rw [hc, List.cons_append, List.dropWhile_cons_of_neg]
    have : c ∈ d := by rw [← List.mem_reverse, hc]; simp
    simp
    rintro rfl
    exact h.2.1 this
  rw [e2, dropWhile_noslash (by simpa using h.2.1) _ (rev_dirPath ds), List.reverse_reverse]

/-- the directory and those above it, deepest first -/
def anc (ds : List Bytes) : List Bytes := ((List.range (ds.length + 1)).map fun i => dirPath (ds.take i)).reverse

theorem anc_nil : anc [] = [[]] := rfl

theorem anc_snoc (ds : List Bytes) (d : Bytes) : anc (ds ++ [d]) = dirPath (ds ++ [d]) :: anc ds := by
  unfold anc
  rw [List.length_append, List.length_singleton, List.range_succ, List.map_append, List.reverse_append]
  simp only [List.map_cons, List.map_nil, List.reverse_singleton, List.singleton_append]
  rw [List.take_of_length_le (by simp)]
  congr 2
  apply List.map_congr_left
  intro i hi
  rw [List.take_append_of_le_length (by simp at hi; omega)]

theorem dirPath_snoc_ne (ds : List Bytes) (d : Bytes) : dirPath (ds ++ [d]) ≠ [] := by rw [dirPath_snoc]; simp

theorem length_le_dirPath (ds : List Bytes) : ds.length ≤ (dirPath ds).length := by
  induction ds using list_snoc_induction with
  | hnil => simp
  | hsnoc ds d ih => rw [dirPath_snoc]; simp; omega

theorem walkUp_eq (ds : List Bytes) (hds : ∀ d ∈ ds, GoodName d) (n : Nat) (hn : ds.length ≤ n) : walkUp n (dirPath ds) = anc ds := by
  induction n generalizing ds with
  | zero =>
    rw [List.length_eq_zero_iff.mp (Nat.le_zero.mp hn)]; rfl
  | succ n ih =>
    rcases List.eq_nil_or_concat ds with rfl | ⟨ds', d, rfl⟩
    · rfl
    · rw [List.concat_eq_append] at *
      rw [walkUp, if_neg (dirPath_snoc_ne _ _), parentDir_path _ (hds d (by simp)), anc_snoc, ih ds' (fun x hx => hds x (by simp [hx])) (by simp at hn; omega)]

theorem dropLast_dirPath (ds : List Bytes) (d : Bytes) : (dirPath (ds ++ [d])).dropLast = dirPath ds ++ d := by
  rw [dirPath_snoc, List.dropLast_concat]

theorem ancestors_go (ds : List Bytes) (hds : ∀ d ∈ ds, GoodName d) (n : Nat) (hn : ds.length ≤ n) : ancestors.go n (dirPath ds) = anc ds := by
  induction n generalizing ds with
  | zero =>
    rw [List.length_eq_zero_iff.mp (Nat.le_zero.mp hn)]; rfl
  | succ n ih =>
    rcases List.eq_nil_or_concat ds with rfl | ⟨ds', d, rfl⟩
    · rfl
    · rw [List.concat_eq_append] at *
      rw [ancestors.go, if_neg (dirPath_snoc_ne _ _), dropLast_dirPath, dirName_path _ (hds d (by simp)).2.1, anc_snoc,
        ih ds' (fun x hx => hds x (by simp [hx])) (by simp at hn; omega)]

theorem ancestors_eq (ds : List Bytes) (hds : ∀ d ∈ ds, GoodName d) : ancestors (dirPath ds) = anc ds :=
  ancestors_go ds hds _ (length_le_dirPath ds)

theorem anc_mem {ds : List Bytes} {x : Bytes} (h : x ∈ anc ds) : x.length ≤ (dirPath ds).length := by
  induction ds using list_snoc_induction with
  | hnil => rw [anc_nil] at h; simp at h; simp [h]
  | hsnoc ds d ih =>
    rw [anc_snoc] at h
    rcases List.mem_cons.mp h with rfl | h
    · exact Nat.le_refl _
    · have := ih h
      rw [dirPath_snoc]; simp; omega

/-! ## Files -/

/-- what is loaded for a directory -/
noncomputable def fileOf (env : Env) (dir : Bytes) : List (Bytes × List Rule) :=
  match env.gitignore dir with
  | none => []
  | some t => [(dir, readRules env.icase (if dir = [] then none else some dir) [] t)]

noncomputable def globalOf (env : Env) : Option Bytes → List (List Rule)
  | none => []
  | some t => [readRules env.icase none [] t]

theorem loadFile_eq {env : Env} (h : PlainEnv env) (dir : Bytes) : loadFile env dir = some (fileOf env dir) := by
  unfold loadFile fileOf
  cases hg : env.gitignore dir with
  | none => rfl
  | some t => simp only [parseFile_plain _ _ _ (h.gitignore dir t hg), Option.map_some]

theorem loadGlobal_eq {env : Env} (f : Option Bytes) (h : ∀ t, f = some t → Plain t) : loadGlobal env f = some (globalOf env f) := by
  unfold loadGlobal globalOf
  cases hg : f with
  | none => rfl
  | some t => simp only [parseFile_plain _ _ _ (h t hg), Option.map_some]

theorem loadFiles_eq {env : Env} (h : PlainEnv env) (dirs : List Bytes) : loadFiles env dirs = some (dirs.flatMap (fileOf env)) := by
  induction dirs with
  | nil => rfl
  | cons d ds ih => rw [loadFiles, loadFile_eq h, ih]; rfl

theorem forPath_eq {env : Env} (h : PlainEnv env) (ds : List Bytes) (hds : ∀ d ∈ ds, GoodName d) {n : Bytes} (hn : c!"/" ∉ n) :
    forPath env (dirPath ds ++ n) = some ⟨env.internal, (anc ds).flatMap (fileOf env), globalOf env env.info ++ globalOf env env.excludes, dirPath ds, ds.length + 1⟩ := by
  unfold forPath
  have e : ((dirPath ds ++ n).reverse.dropWhile (· != c!"/")).reverse = dirPath ds := dirName_path ds hn
  simp only [e, walkUp_eq ds hds _ (length_le_dirPath ds), loadFiles_eq h, loadGlobal_eq _ h.info, loadGlobal_eq _ h.excludes]
  congr 1
  congr 1
  simp [anc]

theorem lk_append (a b : List (List Rule)) (p : APath) : lookupInFiles (a ++ b) p = (lookupInFiles a p).or (lookupInFiles b p) := by
  unfold lookupInFiles; rw [List.findSome?_append]

theorem lk_cons (a : List Rule) (b : List (List Rule)) (p : APath) : lookupInFiles (a :: b) p = (lookupInRules a p).or (lookupInFiles b p) := by
  unfold lookupInFiles
  rw [List.findSome?_cons]
  cases lookupInRules a p <;> rfl

theorem lookup_nil (p : APath) : lookupInRules [] p = none := rfl

theorem lk_files (env : Env) (dirs : List Bytes) (p : APath) : lookupInFiles ((dirs.flatMap (fileOf env)).map (·.2)) p = lookupInFiles (dirs.map (fileRules env)) p := by
  induction dirs with
  | nil => rfl
  | cons d ds ih =>
    rw [List.flatMap_cons, List.map_append, lk_append, ih, List.map_cons, lk_cons]
    congr 1
    unfold fileOf fileRules
    cases env.gitignore d with
    | none => rfl
    | some t => simp only [List.map_cons, List.map_nil]; rw [lk_cons]; simp [lookupInFiles]

theorem lk_global (env : Env) (f : Option Bytes) (p : APath) : lookupInFiles (globalOf env f) p = lookupInFiles [globalRules env f] p := by
  cases f <;> rfl

/-- the sources of a path, as they are loaded -/
theorem lk_sources (env : Env) (ds : List Bytes) (hds : ∀ d ∈ ds, GoodName d) {n : Bytes} (hn : c!"/" ∉ n) (p : APath) :
    lookupInFiles (env.internal :: (((anc ds).flatMap (fileOf env)).map (·.2) ++ (globalOf env env.info ++ globalOf env env.excludes))) p =
    lookupInFiles (sources env (dirPath ds ++ n)) p := by
  unfold sources
  rw [dirName_path ds hn, ancestors_eq ds hds, lk_cons, List.cons_append, lk_cons, lk_append, lk_append, lk_append, lk_files, lk_global, lk_global]
  rw [show [globalRules env env.info, globalRules env env.excludes] = [globalRules env env.info] ++ [globalRules env env.excludes] from rfl, lk_append]

/-! ## Rules of files of directories left behind -/

theorem foldl_addRule_mem (rs : List Rule) (rules : List Rule) {x : Rule} (h : x ∈ rs.foldl addRule rules) : x ∈ rules ∨ x ∈ rs := by
  induction rs generalizing rules with
  | nil => exact .inl h
  | cons r rs ih =>
    rcases ih _ h with h | h
    · unfold addRule at h
      split at h
      · exact .inl h
      · rcases List.mem_append.mp h with h | h
        · exact .inl h
        · simp at h; right; simp [h]
    · right; simp [h]

theorem readLine_below {icase : Bool} {below : Option Bytes} {L : Bytes} {r : Rule} (h : readLine icase below L = some r) : r.below = below := by
  rw [readLine] at h
  by_cases h1 : L = [] ∨ L.head? = some c!"#"
  · rw [if_pos h1] at h; cases h
  · rw [if_neg h1] at h
    dsimp only at h
    generalize Spec.stripBlanks _ = B at h
    by_cases h2 : B = []
    · rw [if_pos h2] at h; cases h
    · rw [if_neg h2] at h
      rw [← Option.some.inj h]

/-- a rule that is not bound to its directory -/
def Loose (x : Rule) : Prop := x.below = none ∧ x.fullpath = false ∧ x.directory = false ∧ (x.pattern = b!"*" ∨ x.pattern = b!".")

theorem readRules_mem {icase : Bool} {below : Option Bytes} {t : Bytes} {x : Rule} (h : x ∈ readRules icase below [] t) : x.below = below ∨ Loose x := by
  unfold readRules at h
  rcases foldl_addRule_mem _ _ h with h | h
  · cases h
  · rcases List.mem_append.mp h with h | h
    · obtain ⟨L, -, h⟩ := List.mem_filterMap.mp h
      exact .inl (readLine_below h)
    · rw [Option.mem_toList] at h
      obtain ⟨L, -, h⟩ := Option.bind_eq_some_iff.mp h
      unfold readLast at h
      split at h
      · rename_i hl
        cases h
        exact .inr ⟨rfl, rfl, rfl, hl⟩
      · exact .inl (readLine_below h)

theorem globs_star (icase : Bool) (t : Bytes) : Globs icase false b!"*" t := by
  refine ⟨_, rfl, t, [], by simp, rfl⟩

theorem globs_dot {icase : Bool} {t : Bytes} (h : Globs icase false b!"." t) : t = b!"." := by
  obtain ⟨es, h1, h2⟩ := h
  cases h1
  obtain ⟨c, t', rfl, h3, rfl⟩ := h2
  have : ∀ (i : Bool) (c : UInt8), Wildmatch.Spec.seen ⟨i, false⟩ c = Wildmatch.Spec.seen ⟨i, false⟩ 46 → c = 46 := by
    unfold Wildmatch.Spec.seen Wildmatch.Spec.lower; decide +kernel
  rw [this icase c h3]

theorem not_applies_long {x : Rule} {path : Bytes} {isDir : Bool} {d : Bytes} (h : x.below = some d) (hl : path.length < d.length) : ¬ Applies x path isDir := by
  rintro ⟨-, d', rel, h1, h2, -⟩
  rw [h] at h2
  have := same_length h2
  rw [h1] at hl
  simp at hl this
  omega

theorem not_applies_dot {x : Rule} {path : Bytes} {isDir : Bool} (h : Loose x) (hp : x.pattern = b!".") (hl : lastName path ≠ b!".") : ¬ Applies x path isDir := by
  rintro ⟨-, d', rel, h1, h2, h3⟩
  rw [h.2.1, hp] at h3
  exact hl (globs_dot h3)

theorem applies_star {x : Rule} {path : Bytes} {isDir : Bool} (h : Loose x) (hp : x.pattern = b!"*") : Applies x path isDir := by
  refine ⟨by simp [h.2.2.1], [], path, rfl, by rw [h.1]; rfl, ?_⟩
  rw [hp, h.2.1]
  exact globs_star _ _

/-- a file that no longer matters: its directory and everything it is about is longer than `n` -/
def Left (n : Nat) (f : Bytes × List Rule) : Prop :=
  n < f.1.length ∧ ∀ x ∈ f.2, (∃ d, x.below = some d ∧ n < d.length) ∨ (Loose x ∧ x.pattern = b!".")

theorem left_none {n : Nat} {fs : List (Bytes × List Rule)} (h : ∀ f ∈ fs, Left n f) {p : APath} (hp : Wf p) (hn : p.path.length ≤ n) (hl : lastName p.path ≠ b!".") :
    lookupInFiles (fs.map (·.2)) p = none := by
  rw [lookup_none hp]
  intro s hs x hx
  obtain ⟨f, hf, rfl⟩ := List.mem_map.mp hs
  rcases (h f hf).2 x hx with ⟨d, h1, h2⟩ | ⟨h1, h2⟩
  · exact not_applies_long h1 (by omega)
  · exact not_applies_dot h1 h2 hl

/-! ## The verdict -/

theorem moveUp_path (ds : List Bytes) (d : Bytes) (hd : GoodName d) {n : Bytes} (hn : c!"/" ∉ n) (isDir : Bool) :
    moveUp ⟨dirPath (ds ++ [d]) ++ n, (dirPath (ds ++ [d])).length, isDir⟩ = ⟨dirPath ds ++ d, (dirPath ds).length, true⟩ := by
  unfold moveUp
  have e : (dirPath (ds ++ [d]) ++ n).take ((dirPath (ds ++ [d])).length - 1) = dirPath ds ++ d := by
    rw [List.take_append_of_le_length (by omega), ← List.dropLast_eq_take, dropLast_dirPath]
  dsimp only
  rw [e, ← dirName_length, dirName_path _ hd.2.1]

theorem wf_path (ds : List Bytes) {n : Bytes} (hn : c!"/" ∉ n) (isDir : Bool) : Wf ⟨dirPath ds ++ n, (dirPath ds).length, isDir⟩ := by
  show (dirPath ds).length = afterSlash (dirPath ds ++ n)
  rw [← dirName_length, dirName_path _ hn]

theorem isIgnoredLoop_verdict {env : Env} (n : Nat) : ∀ (ds : List Bytes) (name : Bytes) (isDir : Bool) (ign : Ignores) (junk : List (Bytes × List Rule)),
    (∀ d ∈ ds, GoodName d) → GoodName name → ds.length < n → ign.internal = env.internal → ign.files = junk ++ (anc ds).flatMap (fileOf env) →
    ign.global = globalOf env env.info ++ globalOf env env.excludes → ign.dir = dirPath ds → ign.depth = ds.length + 1 →
    (∀ f ∈ junk, Left (dirPath ds ++ name).length f) →
    Verdict env (dirPath ds ++ name) isDir (isIgnoredLoop n ign ⟨dirPath ds ++ name, (dirPath ds).length, isDir⟩) := by
  induction n with
  | zero => intro ds _ _ _ _ _ _ h; omega
  | succ n ih =>
    intro ds name isDir ign junk hds hname hlen hint hfiles hglob hdir hdepth hjunk
    have hwf := wf_path ds hname.2.1 isDir
    have hlast : lastName (dirPath ds ++ name) ≠ b!"." := by rw [lastName_path _ hname.2.1]; exact hname.2.2
    have hlk : lookupInFiles (ign.internal :: (ign.files.map (·.2) ++ ign.global)) ⟨dirPath ds ++ name, (dirPath ds).length, isDir⟩ =
        lookupInFiles (sources env (dirPath ds ++ name)) ⟨dirPath ds ++ name, (dirPath ds).length, isDir⟩ := by
      rw [← lk_sources env ds hds hname.2.1, hint, hfiles, hglob, List.map_append, List.append_assoc, lk_cons, lk_cons, lk_append,
        left_none hjunk hwf (Nat.le_refl _) hlast, Option.none_or]
    rw [isIgnoredLoop, hlk]
    cases hr : lookupInFiles (sources env (dirPath ds ++ name)) ⟨dirPath ds ++ name, (dirPath ds).length, isDir⟩ with
    | some b =>
      obtain ⟨r, h1, rfl⟩ := lookup_some hwf hr
      exact .rule h1
    | none =>
      have hsil := (lookup_none hwf).mp hr
      dsimp only at hsil ⊢
      rcases List.eq_nil_or_concat ds with rfl | ⟨ds', d, rfl⟩
      · rw [if_pos (by rfl)]
        exact .top hsil (by rw [dirName_path _ hname.2.1]; rfl)
      · rw [List.concat_eq_append] at *
        have hd : GoodName d := hds d (by simp)
        have hds' : ∀ x ∈ ds', GoodName x := fun x hx => hds x (by simp [hx])
        have hpos : (dirPath (ds' ++ [d])).length ≠ 0 := by
          have := dirPath_snoc_ne ds' d
          intro h; exact this (List.length_eq_zero_iff.mp h)
        rw [if_neg hpos, moveUp_path ds' d hd hname.2.1]
        refine .up hsil (by rw [dirName_path _ hname.2.1]; exact dirPath_snoc_ne _ _) ?_
        rw [dirName_path _ hname.2.1, dropLast_dirPath]
        -- the file of the directory that is left
        have hleft : ∀ f ∈ junk ++ fileOf env (dirPath (ds' ++ [d])), Left (dirPath ds' ++ d).length f := by
          intro f hf
          rcases List.mem_append.mp hf with hf | hf
          · obtain ⟨h1, h2⟩ := hjunk f hf
            have hlt : (dirPath ds' ++ d).length < (dirPath (ds' ++ [d]) ++ name).length := by rw [dirPath_snoc]; simp
            refine ⟨by omega, fun x hx => ?_⟩
            rcases h2 x hx with ⟨e, h3, h4⟩ | h3
            · exact .inl ⟨e, h3, by omega⟩
            · exact .inr h3
          · have hlt : (dirPath ds' ++ d).length < (dirPath (ds' ++ [d])).length := by rw [dirPath_snoc]; simp
            have hmem : ∀ x ∈ f.2, x ∈ fileRules env (dirPath (ds' ++ [d])) ∧ (x.below = some (dirPath (ds' ++ [d])) ∨ Loose x) := by
              intro x hx
              unfold fileOf at hf
              unfold fileRules
              cases hg : env.gitignore (dirPath (ds' ++ [d])) with
              | none => rw [hg] at hf; cases hf
              | some t =>
                rw [hg] at hf
                simp only [List.mem_singleton] at hf
                subst hf
                refine ⟨hx, ?_⟩
                rw [if_neg (dirPath_snoc_ne _ _)] at hx
                exact readRules_mem hx
            have hf1 : f.1 = dirPath (ds' ++ [d]) := by
              unfold fileOf at hf
              cases hg : env.gitignore (dirPath (ds' ++ [d])) with
              | none => rw [hg] at hf; cases hf
              | some t =>
                rw [hg] at hf
                simp only [List.mem_singleton] at hf
                subst hf; rfl
            refine ⟨by rw [hf1]; exact hlt, fun x hx => ?_⟩
            obtain ⟨h1, h2⟩ := hmem x hx
            rcases h2 with h2 | h2
            · exact .inl ⟨_, h2, hlt⟩
            · right
              refine ⟨h2, ?_⟩
              rcases h2.2.2.2 with h3 | h3
              · exfalso
                refine hsil (fileRules env (dirPath (ds' ++ [d]))) ?_ x h1 (applies_star h2 h3)
                unfold sources
                rw [dirName_path _ hname.2.1, ancestors_eq _ hds, anc_snoc]
                simp
              · exact h3
        have hfiles' : ign.files = (junk ++ fileOf env (dirPath (ds' ++ [d]))) ++ (anc ds').flatMap (fileOf env) := by
          rw [hfiles, anc_snoc, List.flatMap_cons, List.append_assoc]
        have hdepth' : 0 < ign.depth - 1 := by rw [hdepth]; simp
        -- what is left of the files
        obtain ⟨junk', hj1, hj2⟩ : ∃ junk', (popDir ign).files = junk' ++ (anc ds').flatMap (fileOf env) ∧ ∀ f ∈ junk', Left (dirPath ds' ++ d).length f := by
          unfold popDir
          dsimp only
          by_cases hg : (anc ds').flatMap (fileOf env) = []
          · rw [hg, List.append_nil] at hfiles'
            rw [hg]
            refine ⟨_, (List.append_nil _).symm, ?_⟩
            intro f hf
            apply hleft
            rw [← hfiles']
            cases hl : ign.files.getLast? with
            | none => rw [hl] at hf; exact hf
            | some g =>
              rw [hl] at hf
              dsimp only at hf
              split at hf
              · exact List.dropLast_subset _ hf
              · exact hf
          · refine ⟨_, ?_, hleft⟩
            rw [← hfiles']
            have : ign.files.getLast? = ((anc ds').flatMap (fileOf env)).getLast? := by
              rw [hfiles', List.getLast?_append]
              cases hh : ((anc ds').flatMap (fileOf env)).getLast? with
              | none => exact absurd (List.getLast?_eq_none_iff.mp hh) hg
              | some g => rfl
            rw [this]
            cases hl : ((anc ds').flatMap (fileOf env)).getLast? with
            | none => rfl
            | some g =>
              dsimp only
              have hgm := List.mem_of_getLast? hl
              obtain ⟨x, hx, hxg⟩ := List.mem_flatMap.mp hgm
              have hg1 : g.1 = x := by
                unfold fileOf at hxg
                cases hgi : env.gitignore x with
                | none => rw [hgi] at hxg; cases hxg
                | some t => rw [hgi] at hxg; simp only [List.mem_singleton] at hxg; subst hxg; rfl
              have := anc_mem hx
              rw [if_neg]
              rintro ⟨-, h⟩
              rw [hg1, hdir, dirPath_snoc] at h
              have := congrArg List.length h
              simp at this
              omega
        exact ih ds' d true (popDir ign) junk' hds' hd (by simp at hlen; omega) hint hj1 hglob
          (by show (if 0 < ign.depth - 1 then parentDir ign.dir else ign.dir) = _; rw [if_pos hdepth', hdir, parentDir_path _ hd])
          (by show ign.depth - 1 = _; rw [hdepth]; simp) hj2

/-- the verdict is one -/
theorem verdict_unique {env : Env} {path : Bytes} {isDir b b' : Bool} (h : Verdict env path isDir b) (h' : Verdict env path isDir b') : b = b' := by
  induction h generalizing b' with
  | @rule path isDir r h =>
    have hwf : Wf ⟨path, afterSlash path, isDir⟩ := rfl
    cases h' with
    | @rule _ _ r' k =>
      have h1 := decides_lookup hwf h
      have h2 := decides_lookup hwf k
      rw [h1] at h2
      exact Option.some.inj h2
    | up k _ _ =>
      have h1 := decides_lookup hwf h
      rw [(lookup_none hwf).mpr k] at h1; cases h1
    | top k _ =>
      have h1 := decides_lookup hwf h
      rw [(lookup_none hwf).mpr k] at h1; cases h1
  | @up path isDir b h1 h2 _ ih =>
    have hwf : Wf ⟨path, afterSlash path, isDir⟩ := rfl
    cases h' with
    | @rule _ _ r' k =>
      have h3 := decides_lookup hwf k
      rw [(lookup_none hwf).mpr h1] at h3; cases h3
    | up _ _ k => exact ih k
    | top _ k => exact absurd k h2
  | @top path isDir h1 h2 =>
    have hwf : Wf ⟨path, afterSlash path, isDir⟩ := rfl
    cases h' with
    | @rule _ _ r' k =>
      have h3 := decides_lookup hwf k
      rw [(lookup_none hwf).mpr h1] at h3; cases h3
    | up _ k _ => exact absurd h2 k
    | top _ _ => rfl

end Verif.Ignore
