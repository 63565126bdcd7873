import Verif.Ignore.Model
import Verif.Attr.Spec
import Verif.Cmp
import Verif.Sort.Model
/-! # Model of attributes: `src/libgit2/attr.c`, `attr_file.c`, `attrcache.c`

The parser of patterns (`git_attr_fnmatch__parse`) is shared with ignore files: `Ignore.scanLoop`, `Ignore.finishParse`. A vector of
assignments is a list (`git_vector_insert_sorted` and `git_vector_bsearch` are C49), searched with the modelled `Sort.bsearch`. A pointer to
one of the three marker strings is a constructor of `Value`. Not modelled: allocation failures, path length limits, files beyond 100 MB,
byte order marks, bare repositories, paths through symbolic links (`git_fs_path_find_dir` resolves them), errors reading HEAD or a commit; files do not change between calls. -/
namespace Verif.Attr
open Ignore (nextLine scanLoop finishParse APath mkPath hasPrefix walkUp)
open Ignore.Spec (Rule)
open Spec (Value Assign Place Repo)
open Wildmatch (wildmatch isSpace)

/-! ## Assignments -/

/-- a `char`, sign-extended to 32 bits: the addition of `c` at src/libgit2/attr_file.c:413-418 -/
def signExtended (c : UInt8) : Nat := if c.toNat < 128 then c.toNat else c.toNat + 2 ^ 32 - 256

/-- `git_attr_file__name_hash`: src/libgit2/attr_file.c:408-419; the same loop at :923-927 -/
def nameHash (name : Bytes) : Nat := name.foldl (fun h c => (h * 33 + signExtended c) % 2 ^ 32) 5381

/-- `sort_by_hash_and_name`: src/libgit2/attr_file.c:852-863 -/
def nameCmp (a b : Bytes) : Int :=
  if nameHash b < nameHash a then 1 else if nameHash a < nameHash b then -1 else bcmp b a

/-- `git_vector_insert_sorted` with `merge_assignments`: src/libgit2/attr_file.c:875-883, src/util/vector.c:150-183 -/
def insertAssign (as : List Assign) (a : Assign) : Res (List Assign) :=
  match Sort.bsearch (fun x : Assign => nameCmp a.name x.name) as with
  | .ok r => .ok (if r.1 then as.set r.2 a else as.take r.2 ++ a :: as.drop r.2)
  | .err e => .err e
  | .ub => .ub

/-- the assignments of a macro are inserted one by one: src/libgit2/attr_file.c:961-970 -/
def insertAll (as : List Assign) : List Assign → Res (List Assign)
  | [] => .ok as
  | a :: l => match insertAssign as a with
    | .ok as => insertAll as l
    | .err e => .err e
    | .ub => .ub

/-- the macros, `cache->macros` [src/libgit2/attrcache.c:16-17, 26]: the hash map is C25 -/
abbrev Macros := List (Bytes × List Assign)

/-- `git_attr_cache__lookup_macro`: src/libgit2/attrcache.c:502-514 -/
def lookupMacro (m : Macros) (name : Bytes) : Option (List Assign) := (m.find? (fun p => p.1 = name)).map (·.2)

/-- `git_attr_cache__insert_macro`: src/libgit2/attrcache.c:464-500 -/
def insertMacro (m : Macros) (name : Bytes) (as : List Assign) : Macros :=
  if as.length = 0 then m else (name, as) :: m.filter (fun p => p.1 ≠ name)

/-- the value a prefix says: src/libgit2/attr_file.c:905-917 -/
def prefixValue (s : Bytes) : Value :=
  if s.head? = some c!"-" then .false else if s.head? = some c!"!" then .unspecified else .true

/-- what is left after the prefix: src/libgit2/attr_file.c:909-914 -/
def afterPrefix (s : Bytes) : Bytes := if s.head? = some c!"-" ∨ s.head? = some c!"!" then s.tail else s

/-- the loop of `git_attr_assignment__parse`: src/libgit2/attr_file.c:899-982. Returns the assignments and `scan`. -/
def assignLoop (m : Macros) : Nat → Bytes → List Assign → Res (List Assign × Bytes)
  | 0, _, _ => .ub
  | n + 1, scan, as =>
    if scan = [] ∨ scan.head? = some c!"\n" then .ok (as, scan)
    else
      let s1 := scan.dropWhile (fun c => isSpace c && c != c!"\n")
      if s1.head? = some c!"#" then .ok (as, s1)
      else
        let s2 := afterPrefix s1
        let name := s2.takeWhile (fun c => !isSpace c && c != c!"=")
        let s3 := s2.dropWhile (fun c => !isSpace c && c != c!"=")
        if name = [] then assignLoop m n (s3.dropWhile (fun c => !isSpace c)) as
        else
          let text := if s3.head? = some c!"=" then s3.tail.takeWhile (fun c => !isSpace c) else []
          let s4 := if s3.head? = some c!"=" then s3.tail.dropWhile (fun c => !isSpace c) else s3
          let value := if text = [] then prefixValue s1 else .text text
          match insertAll as ((if value = .true then (lookupMacro m name).getD [] else []) ++ [⟨name, value⟩]) with
          | .ok as => assignLoop m n s4 as
          | .err e => .err e
          | .ub => .ub

/-- `git_attr_assignment__parse`: src/libgit2/attr_file.c:885-990; GIT_ENOTFOUND is an empty list of assignments -/
def parseAssigns (m : Macros) (base : Bytes) : Res (List Assign × Bytes) :=
  match assignLoop m (base.length + 1) base [] with
  | .ok r => .ok (r.1, nextLine r.2)
  | .err e => .err e
  | .ub => .ub

/-! ## Files -/

/-- the outcome of parsing a pattern: the rule, whether it is a macro, and the new `*base`; or GIT_ENOTFOUND [src/libgit2/attr_file.c:717-834
(results)] -/
inductive Parsed where
  | rule (r : Rule) (isMacro : Bool) (base : Bytes)
  | notFound (base : Bytes)
  deriving DecidableEq, Repr

/-- `git_attr_fnmatch__parse`: src/libgit2/attr_file.c:717-850, with the flags of attribute files (GIT_ATTR_FNMATCH_ALLOWNEG and ALLOWMACRO, no
ALLOWSPACE: :373). `stale`: the `containing_dir` left in a rule that is used again (:364-371, :1001-1003). -/
def parseOne (below stale : Option Bytes) (base : Bytes) : Parsed :=
  if base = b!"*" ∨ base = b!"." then .rule ⟨base, stale, false, false, false, false, false⟩ false base
  else
    let p := base.dropWhile isSpace
    if p = [] ∨ p.head? = some c!"#" then .notFound (nextLine p)
    else
      let mac := decide (p.take 6 = b!"[attr]")
      let p1 := if mac then p.drop 6 else p
      let negative := decide (p1.head? = some c!"!")
      let p2 := if negative then p1.tail else p1
      let r := scanLoop false p2 ⟨[], false, false, false, 0⟩
      match finishParse below negative r.1 r.2 with
      | .rule r base => .rule r mac base
      | .notFound base => .notFound base

/-- a rule: its pattern and its assignments [src/libgit2/attr_file.h:74-77 (`git_attr_rule`)] -/
abbrev ARule := Rule × List Assign

/-- the loop of `git_attr_file__parse_buffer`: src/libgit2/attr_file.c:363-399 -/
def parseLoop (icase : Bool) (below : Option Bytes) (allowMacros : Bool) :
    Nat → Bytes → Option Bytes → List ARule → Macros → Res (List ARule × Macros)
  | 0, _, _, _, _ => .ub
  | n + 1, scan, stale, rules, m =>
    if scan = [] then .ok (rules, m)
    else match parseOne below stale scan with
      | .notFound base => parseLoop icase below allowMacros n base stale rules m
      | .rule r isMacro base =>
        match parseAssigns m base with
        | .err e => .err e
        | .ub => .ub
        | .ok (as, base) =>
          if as = [] then parseLoop icase below allowMacros n base r.below rules m
          else
            let r := { r with icase := icase }
            if isMacro then
              if allowMacros then parseLoop icase below allowMacros n base none rules (insertMacro m r.pattern as)
              else parseLoop icase below allowMacros n base r.below rules m
            else parseLoop icase below allowMacros n base none (rules ++ [(r, as)]) m

/-- `git_attr_file__parse_buffer`: src/libgit2/attr_file.c:345-406. `below`: for the file ".gitattributes" of a subdirectory, the directory
(:352-355, :811-820). -/
def parseBuffer (icase : Bool) (below : Option Bytes) (allowMacros : Bool) (m : Macros) (text : Bytes) : Res (List ARule × Macros) :=
  parseLoop icase below allowMacros (text.length + 1) text none [] m

/-! ## Matching -/

/-- `git_attr_fnmatch__match` without GIT_ATTR_FNMATCH_IGNORE: src/libgit2/attr_file.c:477-536 -/
def fnmatch (m : Rule) (path : APath) : Bool :=
  if (match m.below with | some d => ! hasPrefix m.icase path.path d | none => false) then false
  else
    let relpath := path.path.drop (m.below.getD []).length
    let filename := if m.fullpath then relpath else path.path.drop path.base
    if m.directory ∧ ¬ path.isDir then false
    else decide (wildmatch ⟨m.icase, m.fullpath⟩ m.pattern filename = .ok)

/-- `git_attr_rule__match`: src/libgit2/attr_file.c:538-548 -/
def ruleMatch (r : ARule) (path : APath) : Bool := if r.1.negative then !fnmatch r.1 path else fnmatch r.1 path

/-- the rules `git_attr_file__foreach_matching_rule` visits: src/libgit2/attr_file.h:198-200 -/
def matchingRules (file : List ARule) (path : APath) : List ARule := file.reverse.filter (fun r => ruleMatch r path)

/-- `git_vector_bsearch` in the assignments of a rule: src/libgit2/attr.c:86-90, attr_file.c:439-443, 550-562 -/
def findAssign (as : List Assign) (name : Bytes) : Res (Option Assign) :=
  match Sort.bsearch (fun x : Assign => nameCmp name x.name) as with
  | .ok r => if r.1 then (match as[r.2]? with | some a => .ok (some a) | none => .ub) else .ok none
  | .err e => .err e
  | .ub => .ub

/-- the search in rules: src/libgit2/attr.c:83-92 -/
def getLoop (name : Bytes) : List ARule → Res (Option Value)
  | [] => .ok none
  | r :: rs => match findAssign r.2 name with
    | .ok (some a) => .ok (some a.value)
    | .ok none => getLoop name rs
    | .err e => .err e
    | .ub => .ub

/-- the rules of all files that match, in the order they are visited: the two loops at src/libgit2/attr.c:81-83, 157-159, 265-267 -/
def allMatching (files : List (List ARule)) (path : APath) : List ARule := files.flatMap (fun f => matchingRules f path)

/-- `git_attr_get_ext`, the search: src/libgit2/attr.c:77-93 -/
def getValue (files : List (List ARule)) (path : APath) (name : Bytes) : Res (Option Value) := getLoop name (allMatching files path)

/-- the inner loop over the attributes: src/libgit2/attr.c:161-181. What is found so far (`info[k].found` and `values[k]`) beside every name. -/
def manyRule (as : List Assign) : List (Bytes × Option Value) → Res (List (Bytes × Option Value))
  | [] => .ok []
  | (n, found) :: l =>
    match (if found = none then (match findAssign as n with | .ok a => Res.ok (a.map Assign.value) | .err e => .err e | .ub => .ub) else .ok found) with
    | .ok v => (match manyRule as l with | .ok l => .ok ((n, v) :: l) | .err e => .err e | .ub => .ub)
    | .err e => .err e
    | .ub => .ub

/-- the loops of `git_attr_get_many_with_session`: src/libgit2/attr.c:157-188 (it stops when everything is found) -/
def manyLoop : List ARule → List (Bytes × Option Value) → Res (List (Bytes × Option Value))
  | [], l => .ok l
  | r :: rs, l => match manyRule r.2 l with
    | .ok l => if l.all (fun p => p.2.isSome) then .ok l else manyLoop rs l
    | .err e => .err e
    | .ub => .ub

/-- `git_attr_get_many_with_session`, the search: src/libgit2/attr.c:129-130, 154-188 -/
def getMany (files : List (List ARule)) (path : APath) (names : List Bytes) : Res (List (Option Value)) :=
  if names = [] then .ok []
  else match manyLoop (allMatching files path) (names.map (fun n => (n, none))) with
    | .ok l => .ok (l.map (·.2))
    | .err e => .err e
    | .ub => .ub

/-- the inner loop of `git_attr_foreach_ext`: src/libgit2/attr.c:269-283; `cb` is the callback, with everything it was called with so far
(newest first); the result is what it was called with, the names seen, and the value it returned (0, or it stops) -/
def foreachAssigns (cb : List Assign → Assign → Int) : List Assign → List Assign → List Bytes → List Assign × List Bytes × Int
  | [], calls, seen => (calls, seen, 0)
  | a :: as, calls, seen =>
    if a.name ∈ seen then foreachAssigns cb as calls seen
    else
      let e := cb calls a
      if e ≠ 0 then (a :: calls, a.name :: seen, e) else foreachAssigns cb as (a :: calls) (a.name :: seen)

/-- the loops of `git_attr_foreach_ext`: src/libgit2/attr.c:265-285 -/
def foreachLoop (cb : List Assign → Assign → Int) : List ARule → List Assign → List Bytes → List Assign × Int
  | [], calls, _ => (calls, 0)
  | r :: rs, calls, seen =>
    match foreachAssigns cb r.2 calls seen with
    | (calls, seen, e) => if e ≠ 0 then (calls, e) else foreachLoop cb rs calls seen

/-! ## Sources -/

/-- what the cache knows a file by: the path of its entry and its source [src/libgit2/attrcache.c:185-243] -/
inductive Key where
  | system
  | config
  | info
  | dir (p : Place) (d : Bytes)
  deriving DecidableEq, Repr

/-- `git_attr_cache` [src/libgit2/attrcache.c:19-28] -/
structure Cache where
  macros : Macros
  files : List (Key × List ARule)
  deriving DecidableEq, Repr

/-- the text of a file [src/libgit2/attr_file.c:108-235 (the sources)] -/
def textOf (repo : Repo) : Key → Option Bytes
  | .system => repo.system
  | .config => repo.config
  | .info => repo.info
  | .dir p d => repo.file p d

/-- `context`: src/libgit2/attr_file.c:352-355 -/
def contextOf : Key → Option Bytes
  | .dir _ d => if d = [] then none else some d
  | _ => none

/-- `git_attr_cache__get`: src/libgit2/attrcache.c:245-303, attr_file.c:106-267, for files that do not change: one that is in the cache is
taken from there, one that does not exist is read as an empty one every time -/
def cacheGet (repo : Repo) (allowMacros : Bool) (c : Cache) (k : Key) : Res (List ARule × Cache) :=
  match c.files.find? (fun p => p.1 = k) with
  | some p => .ok (p.2, c)
  | none =>
    match textOf repo k with
    | none => .ok ([], c)
    | some t =>
      match parseBuffer repo.icase (contextOf k) allowMacros c.macros t with
      | .ok (rs, m) => .ok (rs, ⟨m, c.files ++ [(k, rs)]⟩)
      | .err e => .err e
      | .ub => .ub

/-- several files in turn, with whether they may define macros [src/libgit2/attr.c:374-422, 559-581, 605-672] -/
def cacheGetAll (repo : Repo) : Cache → List (Key × Bool) → Res (List (List ARule) × Cache)
  | c, [] => .ok ([], c)
  | c, k :: ks => match cacheGet repo k.2 c k.1 with
    | .err e => .err e
    | .ub => .ub
    | .ok r => match cacheGetAll repo r.2 ks with
      | .ok s => .ok (r.1 :: s.1, s.2)
      | .err e => .err e
      | .ub => .ub

/-- `git_attr_options`: the flags [include/git2/attr.h:91-147] -/
structure Options where
  /-- `flags & 0x03` -/
  order : Nat
  noSystem : Bool
  includeHead : Bool
  includeCommit : Bool
  deriving DecidableEq, Repr

/-- the places beside the working directory and the index: src/libgit2/attr.c:405-419, 515-519 -/
def extraPlaces (o : Options) : List Place := (if o.includeHead then [.head] else []) ++ (if o.includeCommit then [.commit] else [])

/-- `attr_decide_sources`, in a repository with a working directory and an index: src/libgit2/attr.c:486-522 -/
def decideSources (o : Options) : List Place :=
  (if o.order = 0 then [.workdir, .index] else if o.order = 1 then [.index, .workdir] else if o.order = 2 then [.index] else []) ++ extraPlaces o

/-- `attr_setup`: src/libgit2/attr.c:378-430: the files read first, for their macros -/
def setupKeys (o : Options) : List (Key × Bool) :=
  [(.system, true), (.config, true), (.info, true)] ++ (.workdir :: .index :: extraPlaces o).map (fun p => (.dir p [], true))

/-- `collect_attr_files`: src/libgit2/attr.c:596-681: the files that count, in order, for a path relative to the working directory. A file
in the topmost directory may define macros (:569). -/
def collectKeys (o : Options) (path : Bytes) : List (Key × Bool) :=
  let dir := (path.reverse.dropWhile (· != c!"/")).reverse
  (.info, true) :: (walkUp dir.length dir).flatMap (fun d => (decideSources o).map (fun p => (.dir p d, decide (d = [])))) ++
    (.config, true) :: (if o.noSystem then [] else [(.system, true)])

/-- the cache to begin with: `git_attr_cache__init`, src/libgit2/attrcache.c:400-449; with `git_attr_add_macro`, attr.c:432-468 -/
def initCache : Res Cache :=
  match parseAssigns [] b!"-diff -merge -text -crlf" with
  | .ok r => .ok ⟨insertMacro [] b!"binary" r.1, []⟩
  | .err e => .err e
  | .ub => .ub

/-- the files for a path: src/libgit2/attr.c:596-681 -/
def collectFiles (repo : Repo) (o : Options) (c : Cache) (path : Bytes) : Res (List (List ARule) × Cache) :=
  match cacheGetAll repo c (setupKeys o) with
  | .ok r => cacheGetAll repo r.2 (collectKeys o path)
  | .err e => .err e
  | .ub => .ub

/-- `git_attr_get_ext`: src/libgit2/attr.c:47-99. `isDir`: what is on disk. -/
def attrGet (repo : Repo) (o : Options) (c : Cache) (path : Bytes) (isDir : Bool) (name : Bytes) : Res (Option Value × Cache) :=
  match collectFiles repo o c (mkPath path isDir).path with
  | .ok r => (match getValue r.1 (mkPath path isDir) name with | .ok v => .ok (v, r.2) | .err e => .err e | .ub => .ub)
  | .err e => .err e
  | .ub => .ub

/-- `git_attr_get_many_with_session` without a session: src/libgit2/attr.c:119-196 -/
def attrGetMany (repo : Repo) (o : Options) (c : Cache) (path : Bytes) (isDir : Bool) (names : List Bytes) : Res (List (Option Value) × Cache) :=
  if names = [] then .ok ([], c)
  else match collectFiles repo o c (mkPath path isDir).path with
    | .ok r => (match getMany r.1 (mkPath path isDir) names with | .ok v => .ok (v, r.2) | .err e => .err e | .ub => .ub)
    | .err e => .err e
    | .ub => .ub

/-- `git_attr_foreach_ext`: src/libgit2/attr.c:236-295. What the callback was called with, in order, and the result. -/
def attrForeach (repo : Repo) (o : Options) (c : Cache) (path : Bytes) (isDir : Bool) (cb : List Assign → Assign → Int) : Res ((List Assign × Int) × Cache) :=
  match collectFiles repo o c (mkPath path isDir).path with
  | .ok r =>
    let s := foreachLoop cb (allMatching r.1 (mkPath path isDir)) [] []
    .ok ((s.1.reverse, s.2), r.2)
  | .err e => .err e
  | .ub => .ub

end Verif.Attr
