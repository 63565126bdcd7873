import Verif.Wildmatch.Spec
/-! # Specification of ignore rules

Independent of the model; the meaning of glob patterns is that of `Wildmatch.Spec`. -/
namespace Verif.Ignore.Spec
open Wildmatch.Spec

/-- an ignore rule -/
structure Rule where
  /-- the glob pattern -/
  pattern : Bytes
  /-- the directory (with a trailing slash) of the file the rule comes from; `none`: no restriction -/
  below : Option Bytes
  /-- it begins with "!" -/
  negative : Bool
  /-- it ended in a slash -/
  directory : Bool
  /-- it has a slash elsewhere, so it is for the whole path -/
  fullpath : Bool
  /-- it has an unescaped wildcard -/
  wild : Bool
  /-- case is ignored -/
  icase : Bool
  deriving DecidableEq, Repr

/-! ## Reading rules -/

/-- the lines of a text (without their newlines); every line but the first loses carriage returns it begins with -/
def lines : Bytes → List Bytes
  | [] => []
  | t => go t [] false
where
  /-- the lines of what is left, with what is already read of the current one; `skip`: we are after a newline, and nothing has been read -/
  go : Bytes → Bytes → Bool → List Bytes
  | [], cur, _ => [cur]
  | c :: t, cur, skip =>
    if c = c!"\n" then cur :: go t [] true
    else if c = c!"\r" ∧ skip = true then go t cur true
    else go t (cur ++ [c]) false

/-- there is a wildcard that is not escaped -/
def hasWild : Bytes → Bool
  | [] => false
  | [c] => c = c!"*" ∨ c = c!"?" ∨ c = c!"["
  | c :: d :: t => if c = c!"\\" then hasWild t else (decide (c = c!"*" ∨ c = c!"?" ∨ c = c!"[")) || hasWild (d :: t)

/-- the number of backslashes at the end -/
def backslashes (p : Bytes) : Nat := (p.reverse.takeWhile (· == c!"\\")).length

/-- without the blanks at the end, except that a blank after an odd number of backslashes stays, and so does what comes before it -/
def stripBlanks (p : Bytes) : Bytes := go p.length p
where
  go : Nat → Bytes → Bytes
  | 0, p => p
  | n + 1, p => match p.getLast? with
    | none => p
    | some c => if (c = c!" " ∨ c = c!"\t") ∧ backslashes p.dropLast % 2 = 0 then go n p.dropLast else p

def isBlank (c : UInt8) : Bool := c = 32 || (9 ≤ c && c ≤ 13)

/-- a backslash before a blank is dropped (the others are left to the glob pattern), and so is a backslash at the end -/
def unescape : Bytes → Bytes
  | [] => []
  | [c] => if c = c!"\\" then [] else [c]
  | c :: d :: t => if c = c!"\\" then (if isBlank d then d :: unescape t else c :: d :: unescape t) else c :: unescape (d :: t)

/-- the text without a carriage return at its end -/
def dropCr (p : Bytes) : Bytes := if p.getLast? = some c!"\r" then p.dropLast else p

/-- the rule on a line, if any, in a file of the directory `below` -/
def readLine (icase : Bool) (below : Option Bytes) (l : Bytes) : Option Rule :=
  if l = [] ∨ l.head? = some c!"#" then none
  else
    let neg := decide (l.head? = some c!"!")
    let q := if neg then l.tail else l
    let body := stripBlanks (dropCr (if q.head? = some c!"/" then q.tail else q))
    let dir := decide (body.getLast? = some c!"/")
    if body = [] then none
    else some {
      pattern := unescape (if dir then body.dropLast else body)
      below := below
      negative := neg
      directory := dir
      fullpath := decide ((if dir then 2 else 1) ≤ q.count c!"/")
      wild := hasWild q
      icase := icase }

/-- the glob pattern matches the text -/
def Globs (icase pathname : Bool) (pattern text : Bytes) : Prop := Matches ⟨icase, pathname⟩ pattern text

/-- equal, up to case if case is ignored -/
def Same (icase : Bool) (a b : Bytes) : Prop := a.map (seen ⟨icase, false⟩) = b.map (seen ⟨icase, false⟩)

/-- the negative rule `neg`, which has no wildcards, undoes something of the rule `r` that comes before it: `r` is a glob that matches the
path of `neg`; or `r` is a positive rule without wildcards and the two are equal, or one is a name and is the last component of the
other. -/
def Undoes (neg r : Rule) : Prop :=
  if r.wild then Globs neg.icase r.fullpath (r.below.getD [] ++ r.pattern) (neg.below.getD [] ++ neg.pattern)
  else r.negative = false ∧
    ((r.pattern.length = neg.pattern.length ∧ Same neg.icase r.pattern neg.pattern) ∨
     (r.pattern.length < neg.pattern.length ∧ c!"/" ∉ r.pattern ∧ ∃ d n, neg.pattern = d ++ c!"/" :: n ∧ n.length = r.pattern.length ∧ Same neg.icase n r.pattern) ∨
     (neg.pattern.length < r.pattern.length ∧ c!"/" ∉ neg.pattern ∧ ∃ d n, r.pattern = d ++ c!"/" :: n ∧ n.length = neg.pattern.length ∧ Same neg.icase n neg.pattern))

open Classical in
/-- a rule is added at the end of the rules of its file, unless it is negative, without wildcards, and undoes none of them -/
noncomputable def addRule (rules : List Rule) (r : Rule) : List Rule :=
  if r.negative = true ∧ r.wild = false ∧ ¬ ∃ x ∈ rules, Undoes r x then rules else rules ++ [r]

/-- the rule of the last line, if it is not followed by a newline: a lone asterisk or dot is taken as it is, without a directory -/
def readLast (icase : Bool) (below : Option Bytes) (l : Bytes) : Option Rule :=
  if l = b!"*" ∨ l = b!"." then some ⟨l, none, false, false, false, false, icase⟩ else readLine icase below l

/-- the rules of a text, after the rules there already are -/
noncomputable def readRules (icase : Bool) (below : Option Bytes) (rules : List Rule) (text : Bytes) : List Rule :=
  let ls := lines text
  let rs := ls.dropLast.filterMap (readLine icase below) ++ (ls.getLast?.bind (readLast icase below)).toList
  rs.foldl addRule rules

/-! ## Deciding -/

/-- the last component of a path -/
def lastName (p : Bytes) : Bytes := (p.reverse.takeWhile (· != c!"/")).reverse

/-- the directory a path is in, with a trailing slash (empty: the topmost) -/
def dirName (p : Bytes) : Bytes := (p.reverse.dropWhile (· != c!"/")).reverse

/-- the rule applies to a path (a directory, if `isDir`) -/
def Applies (r : Rule) (path : Bytes) (isDir : Bool) : Prop :=
  (r.directory = true → isDir = true) ∧
  ∃ d rel, path = d ++ rel ∧ Same r.icase d (r.below.getD []) ∧
    Globs r.icase r.fullpath r.pattern (if r.fullpath then rel else lastName path)

/-- the rule that decides: the last that applies in the first source that has one that applies -/
def Decides (sources : List (List Rule)) (path : Bytes) (isDir : Bool) (r : Rule) : Prop :=
  ∃ before src after pre post, sources = before ++ src :: after ∧ (∀ s ∈ before, ∀ x ∈ s, ¬ Applies x path isDir) ∧
    src = pre ++ r :: post ∧ Applies r path isDir ∧ ∀ x ∈ post, ¬ Applies x path isDir

/-- no rule applies -/
def Silent (sources : List (List Rule)) (path : Bytes) (isDir : Bool) : Prop := ∀ s ∈ sources, ∀ x ∈ s, ¬ Applies x path isDir

/-- where rules come from: the ones given in memory, the file of every directory (with a trailing slash), the two global files -/
structure Env where
  icase : Bool
  internal : List Rule
  gitignore : Bytes → Option Bytes
  info : Option Bytes
  excludes : Option Bytes

/-- the rules of the file of a directory -/
noncomputable def fileRules (env : Env) (dir : Bytes) : List Rule :=
  match env.gitignore dir with
  | none => []
  | some t => readRules env.icase (if dir = [] then none else some dir) [] t

/-- the rules of a global file -/
noncomputable def globalRules (env : Env) : Option Bytes → List Rule
  | none => []
  | some t => readRules env.icase none [] t

/-- the directory and those it is in, the deepest first, the topmost (empty) last -/
def ancestors (dir : Bytes) : List Bytes := go dir.length dir
where
  go : Nat → Bytes → List Bytes
  | 0, d => [d]
  | n + 1, d => if d = [] then [d] else d :: go n (dirName d.dropLast)

/-- the sources for a path, highest precedence first -/
noncomputable def sources (env : Env) (path : Bytes) : List (List Rule) :=
  env.internal :: (ancestors (dirName path)).map (fileRules env) ++ [globalRules env env.info, globalRules env env.excludes]

/-- **the verdict**: the rule that decides the path; if no rule applies to it, the verdict of its directory; at the top, not ignored -/
inductive Verdict (env : Env) : Bytes → Bool → Bool → Prop
  | rule {path isDir r} : Decides (sources env path) path isDir r → Verdict env path isDir (!r.negative)
  | up {path isDir b} : Silent (sources env path) path isDir → dirName path ≠ [] → Verdict env (dirName path).dropLast true b → Verdict env path isDir b
  | top {path isDir} : Silent (sources env path) path isDir → dirName path = [] → Verdict env path isDir false

/-- the directory with these components, with a trailing slash (empty: the topmost) -/
def dirPath (ds : List Bytes) : Bytes := (ds.map (· ++ b!"/")).flatten

/-- a component of a path as one gives it: not empty, not "." -/
def GoodName (c : Bytes) : Prop := c ≠ [] ∧ c!"/" ∉ c ∧ c ≠ b!"."

/-- a text as one writes it: no vertical tab, no form feed, no backslash at the end of a line -/
def Plain (t : Bytes) : Prop := (∀ c ∈ t, c ≠ 11 ∧ c ≠ 12) ∧ ∀ a b, t ≠ a ++ c!"\\" :: c!"\n" :: b

/-- all files of the repository are -/
structure PlainEnv (env : Env) : Prop where
  gitignore : ∀ d t, env.gitignore d = some t → Plain t
  info : ∀ t, env.info = some t → Plain t
  excludes : ∀ t, env.excludes = some t → Plain t

end Verif.Ignore.Spec
