import Verif.Ignore.Spec
/-! # Specification of attributes

Independent of the model; patterns are those of `Ignore.Spec` (`Rule`, `unescape`, `hasWild`), globs those of `Wildmatch.Spec`. -/
namespace Verif.Attr.Spec
open Ignore.Spec (Rule isBlank unescape hasWild stripBlanks dropCr)

/-- what an attribute can be set to: `attr`, `-attr`, `!attr`, `attr=text` -/
inductive Value where
  | true
  | false
  | unspecified
  | text (s : Bytes)
  deriving DecidableEq, Repr

/-- one assignment of a line -/
structure Assign where
  name : Bytes
  value : Value
  deriving DecidableEq, Repr

/-! ## Reading -/

/-- the lines of a text, without their newlines -/
def lines : Bytes → List Bytes
  | [] => [[]]
  | c :: t => if c = c!"\n" then [] :: lines t else ((c :: (lines t).headD []) :: (lines t).tail)

/-- a text up to its first blank that no backslash protects, and the rest -/
def firstWord : Bytes → Bytes × Bytes
  | [] => ([], [])
  | [c] => if isBlank c then ([], [c]) else ([c], [])
  | c :: d :: t =>
    if c = c!"\\" then (c :: d :: (firstWord t).1, (firstWord t).2)
    else if isBlank c then ([], c :: d :: t)
    else (c :: (firstWord (d :: t)).1, (firstWord (d :: t)).2)

/-- the words of a text -/
def words (t : Bytes) : List Bytes := go t []
where
  /-- `cur`: what is read of the current word -/
  go : Bytes → Bytes → List Bytes
  | [], cur => if cur = [] then [] else [cur]
  | c :: t, cur => if isBlank c then (if cur = [] then go t [] else cur :: go t []) else go t (cur ++ [c])

/-- the assignment a word makes: a prefix says false or unspecified, a text after an equals sign is the value; a word without a name
makes none -/
def readWord (w : Bytes) : Option Assign :=
  let v := if w.head? = some c!"-" then Value.false else if w.head? = some c!"!" then .unspecified else .true
  let r := if w.head? = some c!"-" ∨ w.head? = some c!"!" then w.tail else w
  let name := r.takeWhile (· ≠ c!"=")
  let text := (r.dropWhile (· ≠ c!"=")).tail
  if name = [] then none else some ⟨name, if text = [] then v else .text text⟩

/-- the assignments after a pattern, up to a comment -/
def readAssigns (t : Bytes) : List Assign := ((words t).takeWhile (fun w => w.head? ≠ some c!"#")).filterMap readWord

/-- the pattern without what it begins with: "!" for a negative one, then a slash -/
def patternBody (w : Bytes) : Bytes :=
  let q := if w.head? = some c!"!" then w.tail else w
  stripBlanks (dropCr (if q.head? = some c!"/" then q.tail else q))

/-- the pattern a word stands for, in a file of the directory `below` -/
def readPattern (icase : Bool) (below : Option Bytes) (w : Bytes) : Rule :=
  let neg := decide (w.head? = some c!"!")
  let q := if neg then w.tail else w
  let body := patternBody w
  let dir := decide (body.getLast? = some c!"/")
  { pattern := unescape (if dir then body.dropLast else body)
    below := below
    negative := neg
    directory := dir
    fullpath := decide ((if dir then 2 else 1) ≤ q.count c!"/")
    wild := hasWild q
    icase := icase }

/-- a line defines a macro -/
def isMacro (l : Bytes) : Bool := decide ((l.dropWhile isBlank).take 6 = b!"[attr]")

/-- the first word of a line (after "[attr]", for a macro) and what follows it -/
def patternWord (l : Bytes) : Bytes × Bytes := firstWord (if isMacro l then (l.dropWhile isBlank).drop 6 else l.dropWhile isBlank)

/-- a line with nothing on it, or a comment -/
def isEmptyLine (l : Bytes) : Bool := decide (l.dropWhile isBlank = [] ∨ (l.dropWhile isBlank).head? = some c!"#")

/-- the macros: what each name stands for, as written -/
abbrev Macros := Bytes → Option (List Assign)

/-- assignments with the macros they use: a macro that is set stands for its assignments and for itself -/
def expand (m : Macros) (as : List Assign) : List Assign :=
  as.flatMap (fun a => (if a.value = .true then (m a.name).getD [] else []) ++ [a])

/-- what is known while reading: the macros, and the rules of the file -/
structure Read where
  macros : Macros
  rules : List (Rule × List Assign)

/-- reading one line -/
def readLine (icase : Bool) (below : Option Bytes) (allowMacros : Bool) (s : Read) (l : Bytes) : Read :=
  if isEmptyLine l = true ∨ readAssigns (patternWord l).2 = [] then s
  else
    let r := readPattern icase below (patternWord l).1
    let as := expand s.macros (readAssigns (patternWord l).2)
    if isMacro l then (if allowMacros then { s with macros := fun n => if n = r.pattern then some as else s.macros n } else s)
    else { s with rules := s.rules ++ [(r, as)] }

/-- reading a file -/
def readFile (icase : Bool) (below : Option Bytes) (allowMacros : Bool) (m : Macros) (t : Bytes) : Read :=
  (lines t).foldl (readLine icase below allowMacros) ⟨m, []⟩

/-- a file as one writes it: no backslash at the end of a line; every line that is not empty has a pattern; there is more on the last line
than a lone "*" or "." -/
structure Plain (t : Bytes) : Prop where
  noescape : ∀ a b, t ≠ a ++ c!"\\" :: c!"\n" :: b
  pattern : ∀ l ∈ lines t, isEmptyLine l = false → patternBody (patternWord l).1 ≠ []
  last : ∀ l ∈ (lines t).getLast?, l.dropWhile isBlank ≠ b!"*" ∧ l.dropWhile isBlank ≠ b!"."

/-! ## Deciding -/

/-- the rule is for the path: its pattern applies to it, or does not if it is a negative one -/
def Hits (r : Rule) (path : Bytes) (isDir : Bool) : Prop := r.negative = Bool.false ↔ Ignore.Spec.Applies r path isDir

/-- the last value that the assignments give to the name -/
def Gives (as : List Assign) (name : Bytes) (v : Value) : Prop := ∃ pre post, as = pre ++ ⟨name, v⟩ :: post ∧ ∀ a ∈ post, a.name ≠ name

/-- the assignments say nothing about the name -/
def Mute (as : List Assign) (name : Bytes) : Prop := ∀ a ∈ as, a.name ≠ name

/-- the value of an attribute of a path: what the last rule says, of those that are for the path and say something about the attribute, in
the first file that has one -/
def Decides (files : List (List (Rule × List Assign))) (path : Bytes) (isDir : Bool) (name : Bytes) (v : Value) : Prop :=
  ∃ before src after pre r post, files = before ++ src :: after ∧ src = pre ++ r :: post ∧
    Hits r.1 path isDir ∧ Gives r.2 name v ∧
    (∀ x ∈ post, Hits x.1 path isDir → Mute x.2 name) ∧
    (∀ s ∈ before, ∀ x ∈ s, Hits x.1 path isDir → Mute x.2 name)

/-- no rule for the path says anything about the attribute -/
def Silent (files : List (List (Rule × List Assign))) (path : Bytes) (isDir : Bool) (name : Bytes) : Prop :=
  ∀ s ∈ files, ∀ x ∈ s, Hits x.1 path isDir → Mute x.2 name

/-! ## The files of a repository -/

/-- where the file of a directory can be -/
inductive Place where
  | workdir
  | index
  | head
  | commit
  deriving DecidableEq, Repr

/-- a repository with a working directory: the file of every directory (with a trailing slash; empty: the topmost) at every place; the file
in its information directory, the one in the configuration, the system's -/
structure Repo where
  icase : Bool
  file : Place → Bytes → Option Bytes
  info : Option Bytes
  config : Option Bytes
  system : Option Bytes

/-- the places beside the working directory and the index -/
def extraPlaces (head commit : Bool) : List Place := (if head then [.head] else []) ++ (if commit then [.commit] else [])

/-- the places looked at, in order: 0 the working directory first, 1 the index first, 2 the index only -/
def places (order : Nat) (head commit : Bool) : List Place :=
  (match order with | 0 => [.workdir, .index] | 1 => [.index, .workdir] | 2 => [.index] | _ => []) ++ extraPlaces head commit

/-- all files of a repository are as one writes them -/
structure PlainRepo (repo : Repo) : Prop where
  file : ∀ p d t, repo.file p d = some t → Plain t
  info : ∀ t, repo.info = some t → Plain t
  config : ∀ t, repo.config = some t → Plain t
  system : ∀ t, repo.system = some t → Plain t

/-- a file that may not exist -/
def readOpt (icase : Bool) (below : Option Bytes) (allowMacros : Bool) (m : Macros) : Option Bytes → Read
  | none => ⟨m, []⟩
  | some t => readFile icase below allowMacros m t

/-- the macro there is to begin with -/
def builtin : Macros := fun n => if n = b!"binary" then some [⟨b!"diff", .false⟩, ⟨b!"merge", .false⟩, ⟨b!"text", .false⟩, ⟨b!"crlf", .false⟩] else none

/-- the files that can define macros, in the order they are read: each can use the macros of those before it -/
def macroFiles (repo : Repo) (extra : List Place) : List (Option Bytes) :=
  [repo.system, repo.config, repo.info] ++ (.workdir :: .index :: extra).map (fun p => repo.file p [])

/-- the macros after the first files of a list are read -/
def macrosAfter (repo : Repo) : List (Option Bytes) → Macros
  | fs => fs.foldl (fun m f => (readOpt repo.icase none Bool.true m f).macros) builtin

/-- the rules of the file at a position of that list -/
def topRules (repo : Repo) (extra : List Place) (i : Nat) : List (Rule × List Assign) :=
  (readOpt repo.icase none Bool.true (macrosAfter repo ((macroFiles repo extra).take i)) ((macroFiles repo extra).getD i none)).rules

/-- the rules of the file of a directory -/
def dirRules (repo : Repo) (extra : List Place) (dir : Bytes) (p : Place) : List (Rule × List Assign) :=
  if dir = [] then topRules repo extra (3 + (.workdir :: .index :: extra).idxOf p)
  else (readOpt repo.icase (some dir) Bool.false (macrosAfter repo (macroFiles repo extra)) (repo.file p dir)).rules

/-- the files for a path, highest precedence first: the information directory, the directory of the path and those above (at each, the
places looked at in order), the configuration, the system -/
def filesFor (repo : Repo) (places extra : List Place) (system : Bool) (path : Bytes) : List (List (Rule × List Assign)) :=
  topRules repo extra 2 ::
    (Ignore.Spec.ancestors (Ignore.Spec.dirName path)).flatMap (fun d => places.map (dirRules repo extra d)) ++
    topRules repo extra 1 :: (if system then [topRules repo extra 0] else [])

end Verif.Attr.Spec
