import Verif.Attr.Lemmas6
/-! # C53: attributes -/
namespace Verif.Attr
open Spec (Value Assign Place Repo Plain PlainRepo Gives Mute Decides Silent filesFor readFile)
open Ignore (mkPath mkPath_path wf_path)
open Ignore.Spec (Rule dirPath GoodName)

/-- **C53 (reading).** Reading a file gives a rule for every line with a pattern and assignments (except definitions of macros), in order; and
looking up a name in a rule finds what the line gives to it last, macros included. -/
theorem C53_read (icase : Bool) (below : Option Bytes) (allow : Bool) {t : Bytes} (h : Plain t) :
    ∃ rules m, parseBuffer icase below allow [] t = .ok (rules, m) ∧
      rules.map (·.1) = (readFile icase below allow (fun _ => none) t).rules.map (·.1) ∧
      ∀ (i : Nat) (r : ARule) (s : Rule × List Assign), rules[i]? = some r → (readFile icase below allow (fun _ => none) t).rules[i]? = some s → ∀ n,
        (∀ v, findAssign r.2 n = .ok (some ⟨n, v⟩) ↔ Gives s.2 n v) ∧ (findAssign r.2 n = .ok none ↔ Mute s.2 n) := by
  obtain ⟨rules, m, h1, h2, -⟩ := parseBuffer_ok icase below allow (m := []) (sm := fun _ => none) (by intro n; exact .inl ⟨rfl, rfl⟩) h
  refine ⟨rules, m, h1, ?_⟩
  generalize (readFile icase below allow (fun _ => none) t).rules = ss at h2
  clear h1
  unfold FRep at h2
  induction h2 with
  | nil => exact ⟨rfl, by simp⟩
  | @cons r s rs ss hd _ ih =>
    refine ⟨by simp [hd.1, ih.1], ?_⟩
    intro i r' s' hr hs
    cases i with
    | succ i => exact ih.2 i r' s' (by simpa using hr) (by simpa using hs)
    | zero =>
      simp only [List.getElem?_cons_zero, Option.some.injEq] at hr hs
      subst hr hs
      intro n
      rcases findAssign_ok hd.2.1 n with ⟨a, g1, g2, rfl⟩ | ⟨g1, g2⟩
      · refine ⟨?_, ?_⟩
        · intro v
          rw [g1, ← hd.2.2]
          constructor
          · intro e
            simp only [Res.ok.injEq, Option.some.injEq] at e
            rw [← e]; exact g2
          · intro hm; rw [hd.2.1.unique g2 hm rfl]
        · rw [g1]
          simp only [Res.ok.injEq, reduceCtorEq, false_iff]
          intro hm
          exact (hd.2.mute a.name).mpr hm a g2 rfl
      · rw [g1]
        refine ⟨?_, ?_⟩
        · intro v
          simp only [Res.ok.injEq, reduceCtorEq, false_iff]
          intro hg
          exact g2 _ ((hd.2.2 n v).mpr hg) rfl
        · simp only [true_iff]
          exact (hd.2.mute n).mp g2

/-- the states of the attributes of a repository whose files do not change, after any calls, all of which include HEAD or none, and the
same for a commit -/
inductive Reach (repo : Repo) (head commit : Bool) : Cache → Prop
  | init {c} : initCache = .ok c → Reach repo head commit c
  | get {c o path isDir name v c'} : Reach repo head commit c → o.includeHead = head → o.includeCommit = commit →
      attrGet repo o c path isDir name = .ok (v, c') → Reach repo head commit c'
  | getMany {c o path isDir names v c'} : Reach repo head commit c → o.includeHead = head → o.includeCommit = commit →
      attrGetMany repo o c path isDir names = .ok (v, c') → Reach repo head commit c'
  | foreach {c o path isDir cb v c'} : Reach repo head commit c → o.includeHead = head → o.includeCommit = commit →
      attrForeach repo o c path isDir cb = .ok (v, c') → Reach repo head commit c'

theorem Reach.good {repo : Repo} (hp : PlainRepo repo) {head commit : Bool} {c : Cache} (h : Reach repo head commit c) : Good repo (Spec.extraPlaces head commit) c := by
  induction h with
  | init h => exact init_ok repo _ h
  | @get c o path isDir name v c' _ h1 h2 h ih =>
    rw [← h1, ← h2, ← extra_eq] at ih ⊢
    obtain ⟨rs, c1, g1, g2, g3⟩ := collectFiles_ok hp o ih (mkPath path isDir).path
    unfold attrGet at h
    rw [g1] at h
    dsimp only at h
    rw [getValue_says g2] at h
    cases h; exact g3
  | @getMany c o path isDir names v c' _ h1 h2 h ih =>
    rw [← h1, ← h2, ← extra_eq] at ih ⊢
    obtain ⟨rs, c1, g1, g2, g3⟩ := collectFiles_ok hp o ih (mkPath path isDir).path
    unfold attrGetMany at h
    split at h
    · cases h; exact ih
    · rw [g1] at h
      dsimp only at h
      rw [getMany_says g2] at h
      cases h; exact g3
  | @foreach c o path isDir cb v c' _ h1 h2 h ih =>
    rw [← h1, ← h2, ← extra_eq] at ih ⊢
    obtain ⟨rs, c1, g1, g2, g3⟩ := collectFiles_ok hp o ih (mkPath path isDir).path
    unfold attrForeach at h
    rw [g1] at h
    cases h; exact g3

/-- the files that count for a path -/
abbrev filesOf (repo : Repo) (o : Options) (path : Bytes) : List (List (Rule × List Assign)) :=
  filesFor repo (Spec.places o.order o.includeHead o.includeCommit) (Spec.extraPlaces o.includeHead o.includeCommit) (!o.noSystem) path

theorem collect_path {repo : Repo} (hp : PlainRepo repo) {o : Options} {c : Cache} (h : Reach repo o.includeHead o.includeCommit c) {ds : List Bytes} {n : Bytes}
    (hds : ∀ d ∈ ds, GoodName d) (hn : GoodName n) (isDir slash : Bool) :
    ∃ fs c', collectFiles repo o c (mkPath (dirPath ds ++ n ++ (if slash then b!"/" else [])) isDir).path = .ok (fs, c') ∧ FsRep fs (filesOf repo o (dirPath ds ++ n)) := by
  obtain ⟨rs, c1, g1, g2, g3⟩ := collectFiles_ok hp o (h.good hp) (mkPath (dirPath ds ++ n ++ (if slash then b!"/" else [])) isDir).path
  refine ⟨rs, c1, g1, ?_⟩
  rw [mkPath_path hds hn] at g2
  rwa [collect_files repo o hds hn.2.1] at g2

/-- **C53 (one attribute).** The value of an attribute of a path is what the last rule says, of those that are for the path and say something
about the attribute, in the first file that has one: the one in the information directory, those of the directory of the path and of those
above, the one of the configuration, the system's. If there is none the attribute has no value. This is so after any calls before. -/
theorem C53_get {repo : Repo} (hp : PlainRepo repo) {o : Options} {c : Cache} (h : Reach repo o.includeHead o.includeCommit c) {ds : List Bytes} {n : Bytes}
    (hds : ∀ d ∈ ds, GoodName d) (hn : GoodName n) (isDir slash : Bool) (name : Bytes) :
    ∃ v c', attrGet repo o c (dirPath ds ++ n ++ (if slash then b!"/" else [])) isDir name = .ok (v, c') ∧
      (∀ w, v = some w ↔ Decides (filesOf repo o (dirPath ds ++ n)) (dirPath ds ++ n) isDir name w) ∧
      (v = none ↔ Silent (filesOf repo o (dirPath ds ++ n)) (dirPath ds ++ n) isDir name) := by
  obtain ⟨fs, c', g1, g2⟩ := collect_path hp h hds hn isDir slash
  refine ⟨saysOf fs ⟨dirPath ds ++ n, (dirPath ds).length, isDir⟩ name, c', ?_, says_iff g2 (wf_path ds hn.2.1 isDir) name⟩
  unfold attrGet
  rw [g1]
  dsimp only
  rw [getValue_says g2, mkPath_path hds hn]

/-- **C53 (many attributes).** Asking for several attributes at once gives for each what asking for it alone gives. -/
theorem C53_get_many {repo : Repo} (hp : PlainRepo repo) {o : Options} {c : Cache} (h : Reach repo o.includeHead o.includeCommit c) {ds : List Bytes} {n : Bytes}
    (hds : ∀ d ∈ ds, GoodName d) (hn : GoodName n) (isDir slash : Bool) (names : List Bytes) :
    ∃ vs c', attrGetMany repo o c (dirPath ds ++ n ++ (if slash then b!"/" else [])) isDir names = .ok (vs, c') ∧ vs.length = names.length ∧
      ∀ (i : Nat) (name : Bytes), names[i]? = some name → ∃ v c'', vs[i]? = some v ∧ attrGet repo o c (dirPath ds ++ n ++ (if slash then b!"/" else [])) isDir name = .ok (v, c'') := by
  obtain ⟨fs, c', g1, g2⟩ := collect_path hp h hds hn isDir slash
  have hget : ∀ name, attrGet repo o c (dirPath ds ++ n ++ (if slash then b!"/" else [])) isDir name =
      .ok (saysOf fs (mkPath (dirPath ds ++ n ++ (if slash then b!"/" else [])) isDir) name, c') := by
    intro name
    unfold attrGet
    rw [g1]
    dsimp only
    rw [getValue_says g2]
  unfold attrGetMany
  by_cases h0 : names = []
  · rw [if_pos h0]
    subst h0
    exact ⟨[], c, rfl, rfl, by simp⟩
  · rw [if_neg h0, g1]
    dsimp only
    rw [getMany_says g2]
    refine ⟨_, _, rfl, by simp, ?_⟩
    intro i name hi
    exact ⟨_, c', by rw [List.getElem?_map, hi]; rfl, hget name⟩

/-- **C53 (all attributes).** Iterating over the attributes of a path calls the callback once for every attribute that has a value, with the
value, until it returns something else than 0, which is the result. `calls`: what it was called with; `all`: what it would be called with. -/
theorem C53_foreach {repo : Repo} (hp : PlainRepo repo) {o : Options} {c : Cache} (h : Reach repo o.includeHead o.includeCommit c) {ds : List Bytes} {n : Bytes}
    (hds : ∀ d ∈ ds, GoodName d) (hn : GoodName n) (isDir slash : Bool) (cb : List Assign → Assign → Int) :
    ∃ calls e c' all, attrForeach repo o c (dirPath ds ++ n ++ (if slash then b!"/" else [])) isDir cb = .ok ((calls, e), c') ∧
      all.Pairwise (fun a b => a.name ≠ b.name) ∧
      (∀ name w, ⟨name, w⟩ ∈ all ↔ Decides (filesOf repo o (dirPath ds ++ n)) (dirPath ds ++ n) isDir name w) ∧
      calls <+: all ∧
      (∀ a x b, calls = a ++ x :: b → b ≠ [] → cb a.reverse x = 0) ∧
      (e = 0 → calls = all ∧ ∀ a x, calls = a ++ [x] → cb a.reverse x = 0) ∧
      (e ≠ 0 → ∃ a x, calls = a ++ [x] ∧ cb a.reverse x = e) := by
  obtain ⟨fs, c', g1, g2⟩ := collect_path hp h hds hn isDir slash
  obtain ⟨k, h1, h2, h3, h4⟩ := run_ok cb (once [] (flat (allMatching fs (mkPath (dirPath ds ++ n ++ (if slash then b!"/" else [])) isDir)))) []
  refine ⟨(foreachLoop cb (allMatching fs (mkPath (dirPath ds ++ n ++ (if slash then b!"/" else [])) isDir)) [] []).1.reverse, (foreachLoop cb (allMatching fs (mkPath (dirPath ds ++ n ++ (if slash then b!"/" else [])) isDir)) [] []).2, c', once [] (flat (allMatching fs (mkPath (dirPath ds ++ n ++ (if slash then b!"/" else [])) isDir))), ?_, (once_names _ _).1, ?_, ?_, ?_, ?_, ?_⟩
  · unfold attrForeach
    rw [g1]
  · intro name w
    rw [once_mem _ _ _ _ (by simp), ← (says_iff g2 (wf_path ds hn.2.1 isDir) name).1 w]
    unfold saysOf
    rw [mkPath_path hds hn]
  · rw [foreachLoop_eq, h1]
    simp only [List.append_nil, List.reverse_reverse]
    exact List.take_prefix _ _
  · rw [foreachLoop_eq, h1]
    simpa using h2
  · rw [foreachLoop_eq, h1]
    simpa using h3
  · rw [foreachLoop_eq, h1]
    simpa using h4

/-! ## Defects -/

/-- **C53, a defect.** A last line with nothing but "*" and no newline sets the attribute named "*" on everything. -/
theorem C53_lone_star : (parseBuffer false none true [] b!"*") = .ok ([(⟨b!"*", none, false, false, false, false, false⟩, [⟨b!"*", .true⟩])], []) := by decide +kernel

/-- **C53, a defect.** After a pattern that is empty ("!", "/", "[attr]" alone) the rest of the line is read as a line of its own. -/
theorem C53_empty_pattern :
    parseBuffer false none true [] b!"! foo bar" = .ok ([(⟨b!"foo", none, false, false, false, false, false⟩, [⟨b!"bar", .true⟩])], []) ∧
    parseBuffer false none true [] b!"/ foo bar" = .ok ([(⟨b!"foo", none, false, false, false, false, false⟩, [⟨b!"bar", .true⟩])], []) ∧
    parseBuffer false none true [] b!"[attr] foo bar" = .ok ([(⟨b!"foo", none, false, false, false, false, false⟩, [⟨b!"bar", .true⟩])], []) := by
  refine ⟨?_, ?_, ?_⟩ <;> decide +kernel

/-- a repository: "sub/.gitattributes" uses a macro that the file of HEAD defines -/
def headMacro : Repo := ⟨false, fun p d => if p = .head ∧ d = [] then some b!"[attr]m x\n" else if p = .workdir ∧ d = b!"s/" then some b!"f m\n" else none, none, none, none⟩

/-- what is found in the end -/
def ask (repo : Repo) (o : Options) (c : Res Cache) (path : Bytes) (isDir : Bool) (name : Bytes) : Res (Option Value × Cache) :=
  match c with
  | .ok c => attrGet repo o c path isDir name
  | .err e => .err e
  | .ub => .ub

/-- the answer -/
def answer : Res (Option Value × Cache) → Option (Option Value)
  | .ok r => some r.1
  | _ => none

/-- the cache afterwards -/
def left : Res (Option Value × Cache) → Res Cache
  | .ok r => .ok r.2
  | .err e => .err e
  | .ub => .ub

/-- **C53, a defect.** What a query answers depends on the queries before it: when the file of HEAD defines a macro that the file of a
directory uses, asking with HEAD included finds what the macro sets; after asking without HEAD, the same question finds nothing. -/
theorem C53_history :
    answer (ask headMacro ⟨0, false, true, false⟩ initCache b!"s/f" false b!"x") = some (some .true) ∧
    answer (ask headMacro ⟨0, false, true, false⟩ (left (ask headMacro ⟨0, false, false, false⟩ initCache b!"s/f" false b!"x")) b!"s/f" false b!"x") = some none := by
  constructor <;> decide +kernel

/-- a repository: the file in the information directory uses a macro that the topmost file of the working directory defines -/
def infoMacro : Repo := ⟨false, fun p d => if p = .workdir ∧ d = [] then some b!"[attr]m x\n" else none, some b!"f m\n", none, none⟩

/-- **C53, a defect.** The file in the information directory is read before the topmost file of the working directory, so that it cannot use
the macros that one defines: the macro's name is set and what it stands for is not. -/
theorem C53_macro_order :
    answer (ask infoMacro ⟨0, false, false, false⟩ initCache b!"f" false b!"m") = some (some .true) ∧
    answer (ask infoMacro ⟨0, false, false, false⟩ initCache b!"f" false b!"x") = some none := by
  constructor <;> decide +kernel

/-! ## Concrete cases -/

theorem plain_of {t : Bytes} (h1 : c!"\\" ∉ t) (h2 : (Spec.lines t).all (fun l => Spec.isEmptyLine l || Spec.patternBody (Spec.patternWord l).1 != []) = true)
    (h3 : (Spec.lines t).getLast? = some []) : Plain t := by
  refine ⟨?_, ?_, ?_⟩
  · intro a b e
    exact h1 (by rw [e]; simp)
  · intro l hl he
    have := List.all_eq_true.mp h2 l hl
    rw [he] at this
    simpa using this
  · intro l hl
    rw [h3] at hl
    cases hl
    decide

/-- a file with a macro, a comment, values of all kinds and a repeated name -/
example : Plain b!"# comment\n[attr]bin -text !eol\n*.c text eol=lf\n  /doc/*.txt bin text=auto -text\n" := plain_of (by decide +kernel) (by decide +kernel) (by decide +kernel)

example : (Spec.readFile false none true (fun _ => none) b!"# comment\n[attr]bin -text !eol\n*.c text eol=lf\n  /doc/*.txt bin text=auto -text\n").rules.map (fun r => (r.1.pattern, r.1.fullpath, r.2)) =
    [(b!"*.c", false, [⟨b!"text", .true⟩, ⟨b!"eol", .text b!"lf"⟩]),
     (b!"doc/*.txt", true, [⟨b!"text", .false⟩, ⟨b!"eol", .unspecified⟩, ⟨b!"bin", .true⟩, ⟨b!"text", .text b!"auto"⟩, ⟨b!"text", .false⟩])] := by decide +kernel

/-- a repository with files in several places -/
def sample : Repo := ⟨false, fun p d =>
    if p = .workdir ∧ d = [] then some b!"*.c text\n*.c eol=lf\n[attr]doc -text lang=en\n"
    else if p = .workdir ∧ d = b!"src/" then some b!"*.c -text\nmain.c !eol\n"
    else if p = .index ∧ d = b!"src/" then some b!"*.c text=auto x\n"
    else none, some b!"*.h text\n", some b!"* lang=c\n", none⟩

theorem sample_plain : PlainRepo sample := by
  refine ⟨?_, ?_, ?_, ?_⟩
  · intro p d t h
    simp only [sample] at h
    split at h
    · cases h; exact plain_of (by decide +kernel) (by decide +kernel) (by decide +kernel)
    · split at h
      · cases h; exact plain_of (by decide +kernel) (by decide +kernel) (by decide +kernel)
      · split at h
        · cases h; exact plain_of (by decide +kernel) (by decide +kernel) (by decide +kernel)
        · cases h
  · intro t h; cases h; exact plain_of (by decide +kernel) (by decide +kernel) (by decide +kernel)
  · intro t h; cases h; exact plain_of (by decide +kernel) (by decide +kernel) (by decide +kernel)
  · intro t h; cases h

/-- the nearest file decides, and the places are looked at in the order asked for -/
example : answer (ask sample ⟨0, false, false, false⟩ initCache b!"src/a.c" false b!"text") = some (some .false) ∧
    answer (ask sample ⟨1, false, false, false⟩ initCache b!"src/a.c" false b!"text") = some (some (.text b!"auto")) ∧
    answer (ask sample ⟨0, false, false, false⟩ initCache b!"src/a.c" false b!"eol") = some (some (.text b!"lf")) ∧
    answer (ask sample ⟨0, false, false, false⟩ initCache b!"src/main.c" false b!"eol") = some (some .unspecified) ∧
    answer (ask sample ⟨0, false, false, false⟩ initCache b!"src/a.c" false b!"lang") = some (some (.text b!"c")) ∧
    answer (ask sample ⟨0, false, false, false⟩ initCache b!"src/a.c" false b!"none") = some none := by
  refine ⟨?_, ?_, ?_, ?_, ?_, ?_⟩ <;> decide +kernel

/-- a state reached by a query meets the hypotheses of the theorems -/
example : ∃ c v c', Reach sample false false c ∧ c.files ≠ [] ∧ attrGet sample ⟨1, true, false, false⟩ c b!"src/a.c" false b!"x" = .ok (v, c') := by
  have hds : ∀ d ∈ [b!"src"], GoodName d := by simp [GoodName]
  have hn : GoodName b!"a.c" := ⟨by simp, by decide, by decide⟩
  obtain ⟨c0, h0⟩ := init_exists
  have r0 : Reach sample false false c0 := .init h0
  obtain ⟨v, c1, h1, -, -⟩ := C53_get sample_plain (o := ⟨0, false, false, false⟩) r0 hds hn false false b!"text"
  have r1 : Reach sample false false c1 := .get r0 rfl rfl h1
  obtain ⟨w, c2, h2, -, -⟩ := C53_get sample_plain (o := ⟨1, true, false, false⟩) r1 hds hn false false b!"x"
  refine ⟨c1, w, c2, r1, ?_, h2⟩
  intro e
  have hl : ∀ c', left (ask sample ⟨0, false, false, false⟩ initCache b!"src/a.c" false b!"text") = .ok c' → c'.files ≠ [] := by
    intro c' h
    have : (match left (ask sample ⟨0, false, false, false⟩ initCache b!"src/a.c" false b!"text") with | .ok c => decide (c.files ≠ []) | _ => false) = true := by decide +kernel
    rw [h] at this
    simpa using this
  refine hl c1 ?_ e
  rw [h0]
  have h1' : attrGet sample ⟨0, false, false, false⟩ c0 b!"src/a.c" false b!"text" = .ok (v, c1) := h1
  simp only [ask, h1', left]

end Verif.Attr
