import Verif.Wildmatch.Model
import Verif.Ignore.Spec
/-! # Model of the ignore rules: `src/libgit2/ignore.c`, `attr_file.c`, and their use in `iterator.c`

Texts are the bytes before the terminating NUL. The type of rules is `Spec.Rule`: `git_attr_fnmatch` (src/libgit2/attr_file.h:66-72) with
`containing_dir` as `below`; the flag GIT_ATTR_FNMATCH_IGNORE is set on all of them. Not modelled: allocation failures, the attribute
cache (a file is what it was when it was last loaded), path length limits, absolute paths. -/
namespace Verif.Ignore
open Spec (Rule Env)
open Wildmatch (wildmatch isSpace)

/-- `git__next_line`: src/util/util.h:88-93 -/
def nextLine (s : Bytes) : Bytes := (s.dropWhile (· != c!"\n")).dropWhile (fun c => c == c!"\n" || c == c!"\r")

/-- `trailing_space_length`, the count of backslashes before the blank at `n - 1`: src/libgit2/attr_file.c:671-675 -/
def escapesBefore (p : Bytes) : Nat := (p.reverse.takeWhile (· == c!"\\")).length

/-- `trailing_space_length`: src/libgit2/attr_file.c:661-682, as what is left of the text; `n` bytes are looked at -/
def trimLoop (p : Bytes) : Nat → Bytes
  | 0 => []
  | n + 1 =>
    let c := p.getD n 0
    if c ≠ c!" " ∧ c ≠ c!"\t" then p.take (n + 1)
    else if escapesBefore (p.take n) % 2 = 1 then p.take (n + 1)
    else trimLoop p n

/-- `unescape_spaces`: src/libgit2/attr_file.c:684-710 -/
def unescapeLoop : Bool → Bytes → Bytes
  | _, [] => []
  | escaped, c :: t =>
    if !escaped && c == c!"\\" then unescapeLoop true t
    else (if escaped && !isSpace c then [c!"\\"] else []) ++ c :: unescapeLoop false t

/-- `git__iswildcard`: src/util/util.h:248-251 -/
def isWildcard (c : UInt8) : Bool := c = c!"*" || c = c!"?" || c = c!"["

/-- the state of the scan of a pattern: src/libgit2/attr_file.c:761-785 -/
structure Scan where
  /-- the bytes from `pattern` to `scan` -/
  taken : Bytes
  escaped : Bool
  fullpath : Bool
  wild : Bool
  slashes : Nat
  deriving DecidableEq, Repr

/-- the scan of a pattern: src/libgit2/attr_file.c:764-785 -/
def scanLoop (allowSpace : Bool) : Bytes → Scan → Scan × Bytes
  | [], s => (s, [])
  | c :: t, s =>
    if c = c!"\\" ∧ s.escaped = false then scanLoop allowSpace t { s with taken := s.taken ++ [c], escaped := true }
    else if isSpace c = true ∧ s.escaped = false then
      if ¬ allowSpace ∨ (c ≠ c!" " ∧ c ≠ c!"\t" ∧ c ≠ c!"\r") then (s, c :: t)
      else scanLoop allowSpace t { s with taken := s.taken ++ [c], escaped := false }
    else if c = c!"/" then
      scanLoop allowSpace t { s with
        taken := if s.slashes = 0 ∧ s.taken = [] then [] else s.taken ++ [c]
        escaped := false, fullpath := true, slashes := s.slashes + 1 }
    else if isWildcard c = true ∧ s.escaped = false then
      scanLoop allowSpace t { s with taken := s.taken ++ [c], escaped := false, wild := true }
    else scanLoop allowSpace t { s with taken := s.taken ++ [c], escaped := false }

/-- the outcome of parsing a pattern: a rule (0) or GIT_ENOTFOUND; with the new `*base` [src/libgit2/attr_file.c:717-835 (results)] -/
inductive Parsed where
  | rule (r : Rule) (base : Bytes)
  | notFound (base : Bytes)
  deriving DecidableEq, Repr

/-- `git_attr_fnmatch__parse` after the pattern was scanned: src/libgit2/attr_file.c:787-832. `below`: the directory of `context`. -/
def finishParse (below : Option Bytes) (negative : Bool) (s : Scan) (rest : Bytes) : Parsed :=
  if s.taken = [] then .notFound rest
  else
    let p1 := if s.taken.getLast? = some c!"\r" then s.taken.dropLast else s.taken
    if p1 = [] then .notFound rest
    else
      let p2 := trimLoop p1 p1.length
      if p2 = [] then .notFound rest
      else
        let dir := decide (p2.getLast? = some c!"/")
        let p3 := if dir then p2.dropLast else p2
        let full := if dir ∧ s.slashes ≤ 1 then false else s.fullpath
        .rule ⟨unescapeLoop false p3, below, negative, dir, full, s.wild, false⟩ rest

/-- `git_attr_fnmatch__parse`: src/libgit2/attr_file.c:717-835, with the flags of ignore files (GIT_ATTR_FNMATCH_ALLOWSPACE and ALLOWNEG,
no ALLOWMACRO), with `parse_optimized_patterns` (:836-850) -/
def parseOne (below : Option Bytes) (base : Bytes) : Parsed :=
  if base = b!"*" ∨ base = b!"." then .rule ⟨base, none, false, false, false, false, false⟩ base
  else if base = [] ∨ base.head? = some c!"#" ∨ base.head? = some c!"\n" ∨ (base.head? = some c!"\r" ∧ base.tail.head? = some c!"\n") then
    .notFound (nextLine base)
  else
    let negative := decide (base.head? = some c!"!")
    let p := if negative then base.tail else base
    let r := scanLoop true p ⟨[], false, false, false, 0⟩
    finishParse below negative r.1 r.2

/-- `git__strncmp`, `git__strncasecmp` of two texts of one length being 0: src/util/util.c -/
def sameText (icase : Bool) (a b : Bytes) : Bool :=
  if icase then a.map Wildmatch.toLower = b.map Wildmatch.toLower else a = b

/-- `does_negate_pattern`: src/libgit2/ignore.c:50-88 -/
def doesNegatePattern (rule neg : Rule) : Bool :=
  if rule.negative ∨ ¬ neg.negative then false
  else if rule.pattern.length = neg.pattern.length then sameText neg.icase rule.pattern neg.pattern
  else
    let shorter := if rule.pattern.length < neg.pattern.length then rule.pattern else neg.pattern
    let longer := if rule.pattern.length < neg.pattern.length then neg.pattern else rule.pattern
    let p := longer.drop (longer.length - shorter.length)
    if longer.getD (longer.length - shorter.length - 1) 0 ≠ c!"/" then false
    else if shorter.contains c!"/" then false
    else sameText neg.icase p shorter

/-- `does_negate_rule`, for one rule: src/libgit2/ignore.c:126-159 -/
def negatesOne (neg rule : Rule) : Bool :=
  if ¬ rule.wild then doesNegatePattern rule neg
  else wildmatch ⟨neg.icase, rule.fullpath⟩ (rule.below.getD [] ++ rule.pattern) (neg.below.getD [] ++ neg.pattern) = .ok

/-- `does_negate_rule`: src/libgit2/ignore.c:103-168 -/
def doesNegateRule (rules : List Rule) (neg : Rule) : Bool := rules.any (negatesOne neg)

/-- the loop of `parse_ignore_file`: src/libgit2/ignore.c:194-236; `none`: not done after `fuel` rounds. GIT_ENOTFOUND does not move
beyond `*base`. -/
def parseLoop (icase : Bool) (below : Option Bytes) : Nat → Bytes → List Rule → Option (List Rule)
  | 0, _, _ => none
  | fuel + 1, scan, rules =>
    if scan = [] then some rules
    else match parseOne below scan with
      | .notFound base => parseLoop icase below fuel base rules
      | .rule r base =>
        let r := { r with icase := icase }
        let scan := nextLine base
        if r.negative ∧ ¬ r.wild ∧ ¬ doesNegateRule rules r then parseLoop icase below fuel scan rules
        else parseLoop icase below fuel scan (rules ++ [r])

/-- `parse_ignore_file`: src/libgit2/ignore.c:170-243; `none`: it does not return (more rounds than this make no difference,
`parse_hangs`). `below`: for the file ".gitignore" of a subdirectory, the directory (:183-187, attr_file.c:811-820). -/
def parseFile (icase : Bool) (below : Option Bytes) (rules : List Rule) (text : Bytes) : Option (List Rule) :=
  parseLoop icase below (text.length + 1) text rules

/-! ## Matching -/

/-- `git_attr_path`: src/libgit2/attr_file.h; `basename` as an offset -/
structure APath where
  path : Bytes
  base : Nat
  isDir : Bool
  deriving DecidableEq, Repr

/-- one more than the offset of the last slash (0 if there is none) [src/libgit2/attr_file.c:608-616] -/
def afterSlash (p : Bytes) : Nat := (p.reverse.dropWhile (· != c!"/")).length

/-- `git_attr_path__init`: src/libgit2/attr_file.c:564-616, for a relative path; `isDir` is given or found on disk -/
def mkPath (s : Bytes) (isDir : Bool) : APath :=
  let p := ((s.reverse.dropWhile (· == c!"/")).reverse).dropWhile (· == c!"/")
  ⟨p, afterSlash p, isDir⟩

/-- `git__prefixcmp`, `git__prefixcmp_icase` being 0: src/util/util.c:213-265 -/
def hasPrefix (icase : Bool) (str pre : Bytes) : Bool := pre.length ≤ str.length ∧ sameText icase (str.take pre.length) pre

/-- `git_attr_fnmatch__match`: src/libgit2/attr_file.c:477-536; the rule is an ignore rule -/
def fnmatch (m : Rule) (path : APath) : Bool :=
  let dirlen := (m.below.getD []).length
  if (match m.below with | some d => ! hasPrefix m.icase path.path d | none => false) then false
  else
    let relpath := path.path.drop dirlen
    let filename := if m.fullpath then relpath else path.path.drop path.base
    if m.directory ∧ ¬ path.isDir then
      if path.base = dirlen then false
      else if sameText m.icase m.pattern relpath then false
      else decide (wildmatch ⟨m.icase, m.fullpath⟩ m.pattern relpath = .ok)
    else decide (wildmatch ⟨m.icase, m.fullpath⟩ m.pattern filename = .ok)

/-- the test of a rule: src/libgit2/ignore.c:454-457 -/
def applies (path : APath) (m : Rule) : Bool := !(m.directory && !path.isDir) && fnmatch m path

/-- `ignore_lookup_in_rules`: src/libgit2/ignore.c:446-464 -/
def lookupInRules (rules : List Rule) (path : APath) : Option Bool := (rules.reverse.find? (applies path)).map (fun m => !m.negative)

/-- the first of several files that has an answer: src/libgit2/ignore.c:485-495, 564-574 -/
def lookupInFiles (files : List (List Rule)) (path : APath) : Option Bool := files.findSome? (fun rules => lookupInRules rules path)

/-- `git_ignores`: src/libgit2/ignore.h:26-37. A file is the directory it is in (the `path` of its entry without ".gitignore") and its
rules; `dir` is relative to the working directory (`dir.ptr + dir_root`). -/
structure Ignores where
  internal : List Rule
  files : List (Bytes × List Rule)
  global : List (List Rule)
  dir : Bytes
  depth : Nat
  deriving DecidableEq, Repr

/-- `git_str_rtruncate_at_char` and `git_fs_path_to_dir`: src/util/str.h:188-194, str.c:616-620, fs_path.c; also the step of
`git_fs_path_walk_up` (fs_path.c:566-572) -/
def parentDir (d : Bytes) : Bytes := ((d.reverse.dropWhile (· == c!"/")).dropWhile (· != c!"/")).reverse

/-- the directories `git_fs_path_walk_up` visits: src/util/fs_path.c:557-573, relative to the ceiling, the working directory -/
def walkUp : Nat → Bytes → List Bytes
  | 0, d => [d]
  | n + 1, d => if d = [] then [d] else d :: walkUp n (parentDir d)

/-- `push_ignore_file` with a file that is read: src/libgit2/ignore.c:245-266. For ".gitignore" in the top directory there is no
context (:183-187). `none`: reading does not end. -/
def loadFile (env : Env) (dir : Bytes) : Option (List (Bytes × List Rule)) :=
  match env.gitignore dir with
  | none => some []
  | some t => (parseFile env.icase (if dir = [] then none else some dir) [] t).map (fun rs => [(dir, rs)])

/-- the two global files: src/libgit2/ignore.c:354-370 -/
def loadGlobal (env : Env) : Option Bytes → Option (List (List Rule))
  | none => some []
  | some t => (parseFile env.icase none [] t).map (fun rs => [rs])

/-- the loop over the directories: src/libgit2/ignore.c:346-351 -/
def loadFiles (env : Env) : List Bytes → Option (List (Bytes × List Rule))
  | [] => some []
  | d :: ds => match loadFile env d, loadFiles env ds with
    | some a, some b => some (a ++ b)
    | _, _ => none

/-- `git_ignore__for_path`: src/libgit2/ignore.c:292-376, for a relative path without "." and ".." in a repository with a working
directory -/
def forPath (env : Env) (path : Bytes) : Option Ignores :=
  let dir := (path.reverse.dropWhile (· != c!"/")).reverse
  let dirs := walkUp dir.length dir
  match loadFiles env dirs, loadGlobal env env.info, loadGlobal env env.excludes with
  | some fs, some a, some b => some ⟨env.internal, fs, a ++ b, dir, dirs.length⟩
  | _, _, _ => none

/-- `git_ignore__push_dir`: src/libgit2/ignore.c:378-387; `dir` ends in a slash -/
def pushDir (env : Env) (ign : Ignores) (dir : Bytes) : Option Ignores :=
  (loadFile env (ign.dir ++ dir)).map (fun f => { ign with dir := ign.dir ++ dir, depth := ign.depth + 1, files := ign.files ++ f })

/-- `git_ignore__pop_dir`: src/libgit2/ignore.c:389-422 -/
def popDir (ign : Ignores) : Ignores :=
  let files := match ign.files.getLast? with
    | none => ign.files
    | some f => if f.1 ≠ [] ∧ f.1 = ign.dir then ign.files.dropLast else ign.files
  let dir := if 0 < ign.depth - 1 then parentDir ign.dir else ign.dir
  { ign with files := files, dir := dir, depth := ign.depth - 1 }

/-- `git_ignore__lookup`: src/libgit2/ignore.c:466-501 -/
def lookup (ign : Ignores) (path : Bytes) (isDir : Bool) : Option Bool :=
  lookupInFiles (ign.internal :: (ign.files.reverse.map (·.2) ++ ign.global)) (mkPath path isDir)

/-- "move up one directory": src/libgit2/ignore.c:577-586 -/
def moveUp (p : APath) : APath :=
  let s := p.path.take (p.base - 1)
  ⟨s, afterSlash s, true⟩

/-- the loop of `git_ignore_path_is_ignored`: src/libgit2/ignore.c:557-592; every round shortens the path -/
def isIgnoredLoop : Nat → Ignores → APath → Bool
  | 0, _, _ => false
  | n + 1, ign, p =>
    match lookupInFiles (ign.internal :: (ign.files.map (·.2) ++ ign.global)) p with
    | some b => b
    | none => if p.base = 0 then false else isIgnoredLoop n (popDir ign) (moveUp p)

/-- `git_ignore_path_is_ignored`: src/libgit2/ignore.c:533-601. `isDir`: what is on disk, when the path does not end in a slash. -/
def pathIsIgnored (env : Env) (pathname : Bytes) (isDir : Bool) : Option Bool :=
  let p := mkPath pathname (pathname.getLast? = some c!"/" || isDir)
  (forPath env p.path).map (fun ign => isIgnoredLoop (p.path.length + 1) ign p)

/-- `git_ignore_add_rule`: src/libgit2/ignore.c:503-515 -/
def addRules (env : Env) (text : Bytes) : Option Env := (parseFile env.icase none env.internal text).map (fun rs => { env with internal := rs })

/-- the internal rules to begin with, and after `git_ignore_clear_internal_rules`: src/libgit2/ignore.c:20, 272-286, 517-531 -/
def defaultRules (icase : Bool) : Option (List Rule) := parseFile icase none [] b!".\n..\n.git\n"

/-! ## The working directory iterator -/

/-- entering a directory (with a trailing slash, relative to the frame): src/libgit2/iterator.c:1146-1178. A frame is what is above,
the path (with a trailing slash) and `is_ignored` (`none`: GIT_IGNORE_NOTFOUND). -/
def enterDir (env : Env) (ign : Ignores) (path : Bytes) (ignored : Option Bool) (name : Bytes) : Option (Ignores × Bytes × Option Bool) :=
  let p := path ++ name ++ b!"/"
  (pushDir env ign (name ++ b!"/")).map (fun ign' => (ign', p, match lookup ign p true with | some b => some b | none => ignored))

/-- the frames down to a directory: src/libgit2/iterator.c:1887-1893 (the top frame), 1397 -/
def descend (env : Env) : List Bytes → Ignores × Bytes × Option Bool → Option (Ignores × Bytes × Option Bool)
  | [], s => some s
  | name :: more, s => match enterDir env s.1 s.2.1 s.2.2 name with
    | none => none
    | some s' => descend env more s'

/-- `filesystem_iterator_update_ignored` and `filesystem_iterator_current_is_ignored`, for the entry `name` of the directory `dirs`:
src/libgit2/iterator.c:1726-1754. (Directories that were entered and left on the way are undone: `C33_push_pop`.) -/
def iteratorIgnored (env : Env) (dirs : List Bytes) (name : Bytes) (isDir : Bool) : Option Bool :=
  match forPath env b!".gitignore" with
  | none => none
  | some ign =>
    (descend env dirs (ign, [], lookup ign [] true)).map (fun s =>
      (match lookup s.1 (s.2.1 ++ name) isDir with | some b => some b | none => s.2.2) = some true)

end Verif.Ignore
