import Verif.Ignore.Lemmas4
/-! # C33: ignore rules -/
namespace Verif.Ignore
open Spec (Rule Env readLine readLast Same Globs Undoes addRule Plain PlainEnv readRules Applies Decides Silent lastName dirName fileRules globalRules
  dirPath GoodName Verdict ancestors sources)
open Wildmatch (wildmatch isSpace)

/-- **C33 (reading).** A file of rules is read line by line: comments and blank lines are skipped, and every other line is a rule, except that
a negative rule without wildcards that undoes none of the rules before it in the same file is dropped. -/
theorem C33_read (icase : Bool) (below : Option Bytes) (rules : List Rule) {t : Bytes} (h : Plain t) :
    parseFile icase below rules t = some (readRules icase below rules t) := parseFile_plain icase below rules h

theorem head_path {ds : List Bytes} {n : Bytes} (hds : ∀ d ∈ ds, GoodName d) (hn : GoodName n) : ∃ c t, dirPath ds ++ n = c :: t ∧ c ≠ c!"/" := by
  have key : ∀ {d : Bytes} (_ : GoodName d) (r : Bytes), ∃ c t, d ++ r = c :: t ∧ c ≠ c!"/" := by
    intro d hd r
    obtain ⟨c, t, rfl⟩ := List.exists_cons_of_ne_nil hd.1
    exact ⟨c, t ++ r, rfl, fun e => hd.2.1 (by simp [e])⟩
  cases ds with
  | nil =>
    have := key hn []
    rwa [List.append_nil] at this
  | cons d ds =>
    have : dirPath (d :: ds) ++ n = d ++ (c!"/" :: (dirPath ds ++ n)) := by simp [dirPath]
    rw [this]
    exact key (hds d (by simp)) _

theorem last_path {ds : List Bytes} {n : Bytes} (hn : GoodName n) : ∃ c t, (dirPath ds ++ n).reverse = c :: t ∧ c ≠ c!"/" := by
  obtain ⟨c, t, h⟩ := List.exists_cons_of_ne_nil (show n.reverse ≠ [] by simpa using hn.1)
  refine ⟨c, t ++ (dirPath ds).reverse, by rw [List.reverse_append, h]; rfl, ?_⟩
  rintro rfl
  apply hn.2.1
  rw [← List.mem_reverse, h]; simp

theorem mkPath_path {ds : List Bytes} {n : Bytes} (hds : ∀ d ∈ ds, GoodName d) (hn : GoodName n) (isDir : Bool) (slash : Bool) :
    mkPath (dirPath ds ++ n ++ (if slash then b!"/" else [])) isDir = ⟨dirPath ds ++ n, (dirPath ds).length, isDir⟩ := by
  have e : ((dirPath ds ++ n ++ (if slash then b!"/" else [])).reverse.dropWhile (· == c!"/")) = (dirPath ds ++ n).reverse := by
    obtain ⟨c, t, h, hc⟩ := last_path (ds := ds) hn
    cases slash
    · simp only [Bool.false_eq_true, if_false, List.append_nil]
      rw [h, List.dropWhile_cons_of_neg (by simp [hc])]
    · simp only [if_true]
      rw [List.reverse_append, h]
      rw [show [c!"/"].reverse ++ c :: t = c!"/" :: c :: t from rfl, List.dropWhile_cons_of_pos (by simp), List.dropWhile_cons_of_neg (by simp [hc])]
  unfold mkPath
  rw [e, List.reverse_reverse]
  obtain ⟨c, t, h, hc⟩ := head_path hds hn
  have : (dirPath ds ++ n).dropWhile (· == c!"/") = dirPath ds ++ n := by rw [h, List.dropWhile_cons_of_neg (by simp [hc])]
  rw [this]
  dsimp only
  rw [← dirName_length, dirName_path _ hn.2.1]

theorem pathIsIgnored_verdict {env : Env} (h : PlainEnv env) {ds : List Bytes} {name : Bytes} (hds : ∀ d ∈ ds, GoodName d) (hn : GoodName name) (isDir slash : Bool) :
    ∃ b, pathIsIgnored env (dirPath ds ++ name ++ (if slash then b!"/" else [])) isDir = some b ∧ Verdict env (dirPath ds ++ name) (slash || isDir) b := by
  have hl : (decide ((dirPath ds ++ name ++ (if slash then b!"/" else [])).getLast? = some c!"/") || isDir) = (slash || isDir) := by
    cases slash
    · simp only [Bool.false_eq_true, if_false, List.append_nil, Bool.false_or]
      obtain ⟨c, t, hr, hc⟩ := last_path (ds := ds) hn
      rw [List.getLast?_eq_head?_reverse, hr]
      simp [hc]
    · simp
  refine ⟨isIgnoredLoop ((dirPath ds ++ name).length + 1) ⟨env.internal, (anc ds).flatMap (fileOf env), globalOf env env.info ++ globalOf env env.excludes, dirPath ds, ds.length + 1⟩
      ⟨dirPath ds ++ name, (dirPath ds).length, slash || isDir⟩, ?_, ?_⟩
  · unfold pathIsIgnored
    rw [hl, mkPath_path hds hn]
    dsimp only
    rw [forPath_eq h ds hds hn.2.1]
    rfl
  · exact isIgnoredLoop_verdict _ ds name (slash || isDir) _ [] hds hn
      (by have := length_le_dirPath ds; simp; omega) rfl rfl rfl rfl rfl (by simp)

/-- **C33 (main).** Whether a path is ignored is decided by the rules: the last rule that applies to it, of the first source that has one
(the rules in memory, the files of its directory and of those above, nearest first, then the two global files); if none applies to it, by
what decides its directory; and if nothing does it is not ignored. A trailing slash says that the path is a directory. -/
theorem C33_path_is_ignored {env : Env} (h : PlainEnv env) {ds : List Bytes} {name : Bytes} (hds : ∀ d ∈ ds, GoodName d) (hn : GoodName name) (isDir b : Bool) :
    (pathIsIgnored env (dirPath ds ++ name) isDir = some b ↔ Verdict env (dirPath ds ++ name) isDir b) ∧
    (pathIsIgnored env (dirPath ds ++ name ++ b!"/") isDir = some b ↔ Verdict env (dirPath ds ++ name) true b) := by
  have key : ∀ slash : Bool, (pathIsIgnored env (dirPath ds ++ name ++ (if slash then b!"/" else [])) isDir = some b ↔ Verdict env (dirPath ds ++ name) (slash || isDir) b) := by
    intro slash
    obtain ⟨b', h1, h2⟩ := pathIsIgnored_verdict h hds hn isDir slash
    rw [h1]
    constructor
    · intro e; cases e; exact h2
    · intro h3; rw [verdict_unique h2 h3]
  have k1 := key false
  have k2 := key true
  simp only [Bool.false_eq_true, if_false, List.append_nil, Bool.false_or, if_true, Bool.true_or] at k1 k2
  exact ⟨k1, k2⟩

/-- **C33 (below an ignored directory).** What no rule applies to is ignored exactly if its directory is. -/
theorem C33_below {env : Env} (h : PlainEnv env) {ds : List Bytes} {d name : Bytes} (hds : ∀ x ∈ ds ++ [d], GoodName x) (hn : GoodName name) (isDir any : Bool)
    (hsil : Silent (sources env (dirPath (ds ++ [d]) ++ name)) (dirPath (ds ++ [d]) ++ name) isDir) :
    pathIsIgnored env (dirPath (ds ++ [d]) ++ name) isDir = pathIsIgnored env (dirPath ds ++ d ++ b!"/") any := by
  have hd : GoodName d := hds d (by simp)
  have hds' : ∀ x ∈ ds, GoodName x := fun x hx => hds x (by simp [hx])
  obtain ⟨b, h1, h2⟩ := pathIsIgnored_verdict h hds' hd any true
  simp only [if_true, Bool.true_or] at h1 h2
  rw [h1]
  refine (C33_path_is_ignored h hds hn isDir b).1.mpr (.up hsil ?_ ?_)
  · rw [dirName_path _ hn.2.1]; exact dirPath_snoc_ne _ _
  · rw [dirName_path _ hn.2.1, dropLast_dirPath]; exact h2

theorem lit_globs (icase : Bool) : ∀ t : Bytes, (∀ c ∈ t, c ≠ 42 ∧ c ≠ 63 ∧ c ≠ 91 ∧ c ≠ 92) → Globs icase false t t := by
  intro t h
  have hg : ∀ c ∈ t, Wildmatch.isGlobSpecial c = false := by
    intro c hc
    have := h c hc
    simp [Wildmatch.isGlobSpecial, this]
  have := (Wildmatch.lit_matches hg ⟨icase, false⟩ true [] t (.inl (by simp))).mpr ⟨t, [], by simp, rfl, Wildmatch.M_nil.mpr rfl⟩
  rw [List.append_nil] at this
  exact this

/-- **C33 (.git).** With the rules a repository begins with, what is named ".git" is ignored, whatever the files say. -/
theorem C33_dot_git {env : Env} (h : PlainEnv env) {ds : List Bytes} (hds : ∀ d ∈ ds, GoodName d) (isDir : Bool) (hi : defaultRules env.icase = some env.internal) :
    pathIsIgnored env (dirPath ds ++ b!".git") isDir = some true := by
  have hn : GoodName b!".git" := ⟨by simp, by decide, by decide⟩
  have hint : env.internal = [⟨b!".", none, false, false, false, false, env.icase⟩, ⟨b!"..", none, false, false, false, false, env.icase⟩, ⟨b!".git", none, false, false, false, false, env.icase⟩] := by
    have : ∀ i, defaultRules i = some [⟨b!".", none, false, false, false, false, i⟩, ⟨b!"..", none, false, false, false, false, i⟩, ⟨b!".git", none, false, false, false, false, i⟩] := by
      intro i; cases i <;> rfl
    rw [this] at hi
    exact (Option.some.inj hi).symm
  refine (C33_path_is_ignored h hds hn isDir true).1.mpr ?_
  refine Verdict.rule (r := ⟨b!".git", none, false, false, false, false, env.icase⟩)
    ⟨[], env.internal, _, [⟨b!".", none, false, false, false, false, env.icase⟩, ⟨b!"..", none, false, false, false, false, env.icase⟩], [], rfl, by simp, hint, ?_, by simp⟩
  refine ⟨by simp, [], _, rfl, rfl, ?_⟩
  dsimp only
  rw [if_neg (by simp), lastName_path _ hn.2.1]
  exact lit_globs _ _ (by decide +kernel)

/-! ## The working directory iterator -/

theorem fileOf_reverse (env : Env) (d : Bytes) : (fileOf env d).reverse = fileOf env d := by
  unfold fileOf; cases env.gitignore d <;> rfl

/-- the state of the rules in a directory -/
noncomputable def ignAt (env : Env) (ds : List Bytes) : Ignores :=
  ⟨env.internal, (anc ds).reverse.flatMap (fileOf env), globalOf env env.info ++ globalOf env env.excludes, dirPath ds, ds.length + 1⟩

theorem ignAt_lookup (env : Env) {ds : List Bytes} {n : Bytes} (hds : ∀ d ∈ ds, GoodName d) (hn : GoodName n) (isDir slash : Bool) :
    lookup (ignAt env ds) (dirPath ds ++ n ++ (if slash then b!"/" else [])) isDir =
    lookupInFiles (sources env (dirPath ds ++ n)) ⟨dirPath ds ++ n, (dirPath ds).length, isDir⟩ := by
  unfold lookup
  rw [mkPath_path hds hn, ← lk_sources env ds hds hn.2.1]
  have : (ignAt env ds).files.reverse = (anc ds).flatMap (fileOf env) := by
    show ((anc ds).reverse.flatMap (fileOf env)).reverse = _
    rw [List.reverse_flatMap, List.reverse_reverse]
    congr 1
    funext d; exact fileOf_reverse env d
  rw [this]
  rfl

theorem ignAt_push {env : Env} (h : PlainEnv env) (ds : List Bytes) (d : Bytes) : pushDir env (ignAt env ds) (d ++ b!"/") = some (ignAt env (ds ++ [d])) := by
  unfold pushDir
  have e : (ignAt env ds).dir ++ (d ++ b!"/") = dirPath (ds ++ [d]) := by
    show dirPath ds ++ (d ++ b!"/") = _
    rw [dirPath_snoc, List.append_assoc]
  rw [e, loadFile_eq h]
  simp only [Option.map_some, Option.some.injEq]
  unfold ignAt
  dsimp only
  rw [anc_snoc, List.reverse_cons, List.flatMap_append]
  simp

/-- **C33 (entering and leaving).** Entering a directory and leaving it restores the rules as they were. -/
theorem C33_push_pop {env : Env} (h : PlainEnv env) {ds : List Bytes} {d : Bytes} (hd : GoodName d) :
    (pushDir env (ignAt env ds) (d ++ b!"/")).map popDir = some (ignAt env ds) := by
  rw [ignAt_push h]
  simp only [Option.map_some, Option.some.injEq]
  unfold popDir
  have hdir : (ignAt env (ds ++ [d])).dir = dirPath (ds ++ [d]) := rfl
  have hf : (ignAt env (ds ++ [d])).files = (ignAt env ds).files ++ fileOf env (dirPath (ds ++ [d])) := by
    show (anc (ds ++ [d])).reverse.flatMap (fileOf env) = _
    rw [anc_snoc, List.reverse_cons, List.flatMap_append]
    simp [ignAt]
  have hdep : 0 < (ignAt env (ds ++ [d])).depth - 1 := by show 0 < (ds ++ [d]).length + 1 - 1; simp
  rw [if_pos hdep, hdir, parentDir_path ds hd, hf]
  have hfiles : (match ((ignAt env ds).files ++ fileOf env (dirPath (ds ++ [d]))).getLast? with
      | none => (ignAt env ds).files ++ fileOf env (dirPath (ds ++ [d]))
      | some f => if f.1 ≠ [] ∧ f.1 = dirPath (ds ++ [d]) then ((ignAt env ds).files ++ fileOf env (dirPath (ds ++ [d]))).dropLast else (ignAt env ds).files ++ fileOf env (dirPath (ds ++ [d]))) = (ignAt env ds).files := by
    unfold fileOf
    cases hg : env.gitignore (dirPath (ds ++ [d])) with
    | some t =>
      simp only [List.getLast?_append, List.getLast?_singleton, Option.some_or]
      rw [if_pos (by simp [dirPath_snoc_ne]), List.dropLast_concat]
    | none =>
      simp only [List.append_nil]
      cases hl : (ignAt env ds).files.getLast? with
      | none => rfl
      | some g =>
        dsimp only
        rw [if_neg]
        rintro ⟨-, h1⟩
        obtain ⟨x, hx, hxg⟩ := List.mem_flatMap.mp (List.mem_of_getLast? hl)
        have hg1 : g.1 = x := by
          unfold fileOf at hxg
          cases hgi : env.gitignore x with
          | none => rw [hgi] at hxg; cases hxg
          | some t => rw [hgi] at hxg; simp only [List.mem_singleton] at hxg; subst hxg; rfl
        have := anc_mem (List.mem_reverse.mp hx)
        rw [hg1, dirPath_snoc] at h1
        have := congrArg List.length h1
        simp at this
        omega
  refine (congrArg (fun f => Ignores.mk (ignAt env (ds ++ [d])).internal f (ignAt env (ds ++ [d])).global (dirPath ds) ((ignAt env (ds ++ [d])).depth - 1)) hfiles).trans ?_
  unfold ignAt
  simp

/-- what the frame of a directory says -/
def FrameSays (env : Env) (ds : List Bytes) (ig : Option Bool) : Prop :=
  (ds = [] → ig = none) ∧ ∀ ds' d, ds = ds' ++ [d] → Verdict env (dirPath ds' ++ d) true (decide (ig = some true))

theorem frame_step {env : Env} {ds : List Bytes} {n : Bytes} (hds : ∀ d ∈ ds, GoodName d) (hn : GoodName n) (isDir slash : Bool) {ig : Option Bool} (hf : FrameSays env ds ig) :
    Verdict env (dirPath ds ++ n) isDir (decide ((match lookup (ignAt env ds) (dirPath ds ++ n ++ (if slash then b!"/" else [])) isDir with | some b => some b | none => ig) = some true)) := by
  rw [ignAt_lookup env hds hn]
  have hwf := wf_path ds hn.2.1 isDir
  cases hr : lookupInFiles (sources env (dirPath ds ++ n)) ⟨dirPath ds ++ n, (dirPath ds).length, isDir⟩ with
  | some b =>
    obtain ⟨r, h1, rfl⟩ := lookup_some hwf hr
    have : decide (some (!r.negative) = some true) = !r.negative := by cases r.negative <;> rfl
    dsimp only
    rw [this]
    exact .rule h1
  | none =>
    have hsil := (lookup_none hwf).mp hr
    dsimp only at hsil ⊢
    rcases List.eq_nil_or_concat ds with rfl | ⟨ds', d, rfl⟩
    · rw [hf.1 rfl]
      exact .top hsil (by rw [dirName_path _ hn.2.1]; rfl)
    · rw [List.concat_eq_append] at *
      refine .up hsil (by rw [dirName_path _ hn.2.1]; exact dirPath_snoc_ne _ _) ?_
      rw [dirName_path _ hn.2.1, dropLast_dirPath]
      exact hf.2 ds' d rfl

theorem descend_says {env : Env} (h : PlainEnv env) (more : List Bytes) : ∀ {ds : List Bytes} {ig : Option Bool}, (∀ d ∈ ds ++ more, GoodName d) → FrameSays env ds ig →
    ∃ ig', descend env more (ignAt env ds, dirPath ds, ig) = some (ignAt env (ds ++ more), dirPath (ds ++ more), ig') ∧ FrameSays env (ds ++ more) ig' := by
  induction more with
  | nil =>
    intro ds ig _ hf
    rw [List.append_nil]
    exact ⟨ig, rfl, hf⟩
  | cons n more ih =>
    intro ds ig hg hf
    have hds : ∀ d ∈ ds, GoodName d := fun d hd => hg d (by simp [hd])
    have hn : GoodName n := hg n (by simp)
    have hstep := frame_step hds hn true true hf
    have hf' : FrameSays env (ds ++ [n]) (match lookup (ignAt env ds) (dirPath ds ++ n ++ b!"/") true with | some b => some b | none => ig) := by
      refine ⟨by simp, ?_⟩
      intro ds' d e
      obtain ⟨rfl, e2⟩ := List.append_inj' e rfl
      cases e2
      exact hstep
    obtain ⟨ig', h1, h2⟩ := ih (ds := ds ++ [n]) (by simpa using hg) hf'
    rw [show ds ++ [n] ++ more = ds ++ n :: more by simp] at h1 h2
    refine ⟨ig', ?_, h2⟩
    rw [descend]
    unfold enterDir
    dsimp only
    rw [ignAt_push h]
    simp only [Option.map_some]
    rw [show dirPath ds ++ n ++ b!"/" = dirPath (ds ++ [n]) from (dirPath_snoc _ _).symm] at h1 ⊢
    exact h1

/-- **C33 (the iterator).** When no rule applies to the topmost directory itself, the working directory iterator (and with it status, and
adding files) agrees with `git_ignore_path_is_ignored` about every entry. -/
theorem C33_iterator {env : Env} (h : PlainEnv env) {ds : List Bytes} {name : Bytes} (hds : ∀ d ∈ ds, GoodName d) (hn : GoodName name) (isDir : Bool)
    (hroot : Silent (sources env []) [] true) :
    iteratorIgnored env ds name isDir = pathIsIgnored env (dirPath ds ++ name) isDir := by
  have hfp : forPath env b!".gitignore" = some (ignAt env []) := by
    have := forPath_eq h [] (by simp) (n := b!".gitignore") (by decide)
    rw [dirPath_nil, List.nil_append] at this
    rw [this]
    rfl
  have hl0 : lookup (ignAt env []) [] true = none := by
    unfold lookup
    have hwf : Wf (mkPath [] true) := rfl
    rw [lookup_none hwf]
    intro s hs x hx
    show ¬ Applies x [] true
    have : ∀ s ∈ (ignAt env []).internal :: (List.map (·.2) (ignAt env []).files.reverse ++ (ignAt env []).global), ∀ x ∈ s, ¬ Applies x [] true := by
      have := lk_sources env [] (by simp) (n := []) (by simp) ⟨[], 0, true⟩
      rw [dirPath_nil, List.nil_append] at this
      have hn := (lookup_none (p := ⟨[], 0, true⟩) rfl).mpr hroot
      rw [← this, lookup_none (p := ⟨[], 0, true⟩) rfl] at hn
      have e : (ignAt env []).files.reverse = (anc []).flatMap (fileOf env) := by
        show ((anc []).reverse.flatMap (fileOf env)).reverse = _
        rw [List.reverse_flatMap, List.reverse_reverse]
        congr 1
        funext d; exact fileOf_reverse env d
      rw [e]
      exact hn
    exact this s hs x hx
  obtain ⟨ig, h1, h2⟩ := descend_says h ds (ds := []) (ig := none) (by simpa using hds) ⟨fun _ => rfl, by simp⟩
  rw [List.nil_append] at h1 h2
  unfold iteratorIgnored
  rw [hfp]
  dsimp only
  rw [hl0]
  rw [dirPath_nil] at h1
  rw [h1, Option.map_some]
  symm
  have := frame_step hds hn isDir false h2
  simp only [Bool.false_eq_true, if_false, List.append_nil] at this
  exact (C33_path_is_ignored h hds hn isDir _).1.mpr this

/-! ## Defects -/

/-- **C33, a defect.** A line that begins with a vertical tab or a form feed makes reading the rules loop forever: whatever the number of
rounds, the end is not reached. -/
theorem C33_hang (icase : Bool) (below : Option Bytes) (rules : List Rule) (t : Bytes) (c : UInt8) (hc : c = 11 ∨ c = 12) (fuel : Nat) :
    parseLoop icase below fuel (c :: t) rules = none := by
  refine parse_stuck icase below (by simp) ?_ rules fuel
  rcases hc with rfl | rfl
  all_goals
    rw [parseOne, if_neg (by simp), if_neg (by simp)]
    simp [scanLoop, isSpace, finishParse]

/-- **C33, a defect.** A backslash at the end of a line makes the next line part of the pattern: two rules become one that matches neither. -/
theorem C33_swallow : (parseFile false none [] b!"foo\\\nbar\n").map (fun rs => rs.map (·.pattern)) = some [b!"foo\nbar"] := by decide +kernel

section
attribute [local simp] Wildmatch.wildmatch Wildmatch.dowild Wildmatch.starLoop Wildmatch.advance Wildmatch.skipTo Wildmatch.matchSlash Wildmatch.fold
  Wildmatch.isGlobSpecial Wildmatch.isUpper Wildmatch.toLower

theorem wm_star (i : Bool) : wildmatch ⟨i, false⟩ b!"*" [] = .ok := by simp
theorem wm_log : wildmatch ⟨false, false⟩ b!"*.log" b!"keep.log" = .ok := by simp

/-- the rules in memory to begin with, in a repository with these files -/
def repo (files : List (Bytes × Bytes)) : Env := ⟨false, (defaultRules false).getD [], fun d => (files.find? (fun f => f.1 = d)).map (·.2), none, none⟩

theorem repo_internal (files : List (Bytes × Bytes)) : (repo files).internal =
    [⟨b!".", none, false, false, false, false, false⟩, ⟨b!"..", none, false, false, false, false, false⟩, ⟨b!".git", none, false, false, false, false, false⟩] := rfl

/-- **C33, a defect.** A negative rule without wildcards in the file of a subdirectory is dropped when what it undoes is in the file of a
directory above: with "*.log" at the top and "!keep.log" in "sub", "sub/keep.log" stays ignored. -/
theorem C33_negative_subdir : pathIsIgnored (repo [([], b!"*.log\n"), (b!"sub/", b!"!keep.log\n")]) b!"sub/keep.log" false = some true := by
  have h1 : forPath (repo [([], b!"*.log\n"), (b!"sub/", b!"!keep.log\n")]) b!"sub/keep.log" =
      some ⟨(repo []).internal, [(b!"sub/", []), ([], [⟨b!"*.log", none, false, false, false, true, false⟩])], [], b!"sub/", 2⟩ := rfl
  have h2 : mkPath b!"sub/keep.log" false = ⟨b!"sub/keep.log", 4, false⟩ := rfl
  unfold pathIsIgnored
  rw [show (decide (b!"sub/keep.log".getLast? = some c!"/") || false) = false from rfl, h2]
  dsimp only
  rw [h1, repo_internal]
  simp [isIgnoredLoop, lookupInFiles, lookupInRules, applies, fnmatch, List.findSome?_cons, List.find?_cons]

/-- **C33, a defect.** With the rule "*/" (ignore every directory) the iterator takes every file at the top for ignored, because the rule
applies to the topmost directory itself; `git_ignore_path_is_ignored` does not. -/
theorem C33_root_directory :
    iteratorIgnored (repo [([], b!"*/\n")]) [] b!"f" false = some true ∧ pathIsIgnored (repo [([], b!"*/\n")]) b!"f" false = some false := by
  have h1 : forPath (repo [([], b!"*/\n")]) b!".gitignore" =
      some ⟨(repo []).internal, [([], [⟨b!"*", none, false, true, false, true, false⟩])], [], [], 1⟩ := rfl
  have h2 : forPath (repo [([], b!"*/\n")]) b!"f" =
      some ⟨(repo []).internal, [([], [⟨b!"*", none, false, true, false, true, false⟩])], [], [], 1⟩ := rfl
  have h3 : ∀ i, mkPath b!"f" i = ⟨b!"f", 0, i⟩ := fun _ => rfl
  have h4 : ∀ i, mkPath [] i = ⟨[], 0, i⟩ := fun _ => rfl
  constructor
  · unfold iteratorIgnored
    rw [h1]
    simp [descend, lookup, h3, h4, lookupInFiles, lookupInRules, applies, fnmatch, repo_internal]
  · unfold pathIsIgnored
    rw [show (decide (b!"f".getLast? = some c!"/") || false) = false from rfl, h3]
    dsimp only
    rw [h2]
    simp [isIgnoredLoop, lookupInFiles, lookupInRules, applies, fnmatch, repo_internal]

/-- **C33, a defect.** A rule "*" added in memory without a newline counts as one without wildcards, so that the rule "!foo" added after it
is dropped; with the newline it is kept. -/
theorem C33_add_star :
    ((addRules (repo []) b!"*").bind (fun env => addRules env b!"!foo")).map (fun env => env.internal.length) = some 4 ∧
    ((addRules (repo []) b!"*\n").bind (fun env => addRules env b!"!foo")).map (fun env => env.internal.length) = some 5 := by
  constructor
  · decide +kernel
  · have h1 : addRules (repo []) b!"*\n" = some { repo [] with internal := (repo []).internal ++ [⟨b!"*", none, false, false, false, true, false⟩] } := rfl
    rw [h1, repo_internal]
    simp [addRules, parseFile, parseLoop, parseOne, nextLine, scanLoop, finishParse, trimLoop, unescapeLoop, isSpace, isWildcard, doesNegateRule, negatesOne, doesNegatePattern, repo]

/-! ## Concrete cases -/

/-- a rule for a directory, one with a slash, one with a wildcard -/
example : (parseFile false none [] b!"# comment\n\nbuild/\n/top\n*.o\n").map (fun rs => rs.map (fun r => (r.pattern, r.directory, r.fullpath, r.wild))) =
    some [(b!"build", true, false, false), (b!"top", false, true, false), (b!"*.o", false, false, true)] := by decide +kernel

example : Plain b!"# comment\n\nbuild/\n/top\n*.o\n" := by
  refine ⟨by decide +kernel, ?_⟩
  intro a b e
  have : c!"\\" ∈ b!"# comment\n\nbuild/\n/top\n*.o\n" := by rw [e]; simp
  revert this; decide +kernel

example : PlainEnv (repo [([], b!"build/\n")]) := by
  refine ⟨?_, (by intro t h; cases h), (by intro t h; cases h)⟩
  intro d t h
  have : t = b!"build/\n" := by
    simp only [repo, Option.map_eq_some_iff] at h
    obtain ⟨f, h1, rfl⟩ := h
    have := List.mem_of_find?_eq_some h1
    simp at this; rw [this]
  subst this
  refine ⟨by decide +kernel, ?_⟩
  intro a b e
  have : c!"\\" ∈ b!"build/\n" := by rw [e]; simp
  revert this; decide +kernel

example : pathIsIgnored (repo [([], b!"build/\n")]) b!"build/out.o" false = some true := by
  have h1 : forPath (repo [([], b!"build/\n")]) b!"build/out.o" =
      some ⟨(repo []).internal, [([], [⟨b!"build", none, false, true, false, false, false⟩])], [], b!"build/", 2⟩ := rfl
  have h2 : mkPath b!"build/out.o" false = ⟨b!"build/out.o", 6, false⟩ := rfl
  unfold pathIsIgnored
  rw [show (decide (b!"build/out.o".getLast? = some c!"/") || false) = false from rfl, h2]
  dsimp only
  rw [h1, repo_internal]
  simp [isIgnoredLoop, lookupInFiles, lookupInRules, applies, fnmatch, moveUp, popDir, afterSlash]

example : Silent (sources (repo []) []) [] true := by
  have hf : ∀ d, fileRules (repo []) d = [] := fun _ => rfl
  intro s hs x hx
  simp only [sources, repo_internal, List.mem_append, List.mem_cons, List.mem_map] at hs
  rintro ⟨-, d, rel, h1, -, h2⟩
  obtain ⟨rfl, rfl⟩ := List.append_eq_nil_iff.mp h1.symm
  rcases hs with (rfl | ⟨d, -, rfl⟩) | rfl | rfl | h
  · simp only [List.mem_cons, List.not_mem_nil, or_false] at hx
    rcases hx with rfl | rfl | rfl
    all_goals
      have := (Wildmatch.C32_literal (by decide +kernel) ⟨false, false⟩ rfl _).mp ((Wildmatch.C32_wildmatch ⟨false, false⟩ _ _).mpr h2)
      cases this
  · rw [hf] at hx; cases hx
  · cases hx
  · cases hx
  · cases h
end

end Verif.Ignore
