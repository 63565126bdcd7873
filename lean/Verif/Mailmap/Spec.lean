import Verif.Base
/-! # Mailmaps, stated independently of the code -/
namespace Verif.Mailmap.Spec

/-- one rule of a mailmap: commits by `email` (and, if it is given, `name`) are to be shown with `realName` and `realEmail`, where given -/
structure Entry where
  realName : Option Bytes
  realEmail : Option Bytes
  name : Option Bytes
  email : Bytes
  deriving DecidableEq, Repr

/-- an empty name is no name -/
def given (s : Bytes) : Option Bytes := if s = [] then none else some s

/-- the rule that holds for an author, given everything that was said about authors, in order: the last one for this name and email;
if there is none, the last one for this email that mentions no name -/
def rule (h : List Entry) (name email : Bytes) : Option Entry :=
  match h.reverse.find? (fun e => e.email = email ∧ e.name = some name) with
  | some e => some e
  | none => h.reverse.find? (fun e => e.email = email ∧ e.name = none)

/-- the name and the email to be shown for an author -/
def shown (h : List Entry) (name email : Bytes) : Bytes × Bytes :=
  match rule h name email with
  | some e => (e.realName.getD name, e.realEmail.getD email)
  | none => (name, email)

/-! ## The format of a line -/

/-- white space -/
def IsWs (c : UInt8) : Prop := c = 9 ∨ c = 10 ∨ c = 11 ∨ c = 12 ∨ c = 13 ∨ c = 32

/-- nothing but white space -/
def Blank (s : Bytes) : Prop := ∀ c ∈ s, IsWs c

/-- a name: no `<` and no `#`; white space around it does not belong to it -/
structure IsName (s : Bytes) : Prop where
  chars : ∀ c ∈ s, c ≠ c!"<" ∧ c ≠ c!"#"
  first : ∀ c, s.head? = some c → ¬ IsWs c
  last : ∀ c, s.getLast? = some c → ¬ IsWs c

/-- an email: no `>` and no `#` -/
def IsMail (s : Bytes) : Prop := ∀ c ∈ s, c ≠ c!">" ∧ c ≠ c!"#"

/-- what may follow an entry on its line: white space, and a comment -/
def Trailer (s : Bytes) : Prop := ∃ w t, s = w ++ t ∧ Blank w ∧ (t = [] ∨ t.head? = some c!"#")

/-- what a line (without its line feed) says -/
inductive Says : Bytes → Entry → Prop
  /-- `Name <email>`: the author with this email has this name -/
  | simple (w₁ n w₂ m t : Bytes) : Blank w₁ → IsName n → Blank w₂ → IsMail m → Trailer t →
      Says (w₁ ++ n ++ w₂ ++ b!"<" ++ m ++ b!">" ++ t) ⟨given n, none, none, m⟩
  /-- `Name <email> Other <other>`: the author with the other email (and name) has this name and email -/
  | full (w₁ n w₂ m w₃ n' w₄ m' t : Bytes) : Blank w₁ → IsName n → Blank w₂ → IsMail m → Blank w₃ → IsName n' → Blank w₄ → IsMail m' → Trailer t →
      Says (w₁ ++ n ++ w₂ ++ b!"<" ++ m ++ b!">" ++ w₃ ++ n' ++ w₄ ++ b!"<" ++ m' ++ b!">" ++ t) ⟨given n, given m, given n', m'⟩

/-- what the lines of a file say; a line that says nothing is skipped -/
inductive Reads : List Bytes → List Entry → Prop
  | nil : Reads [] []
  | entry (l ls e es) : Says l e → Reads ls es → Reads (l :: ls) (e :: es)
  | skip (l ls es) : (∀ e, ¬ Says l e) → Reads ls es → Reads (l :: ls) es

/-- the lines of a text -/
def LinesOf (ls : List Bytes) (text : Bytes) : Prop := ls ≠ [] ∧ (∀ l ∈ ls, c!"\n" ∉ l) ∧ text = [c!"\n"].intercalate ls

/-- what a text adds to a mailmap: nothing if it contains a NUL byte, otherwise what its lines say, up to the first line that gives an empty
email for the author to be replaced -/
inductive Gives : Bytes → List Entry → Prop
  | nul (text) : (0 : UInt8) ∈ text → Gives text []
  | lines (text ls es) : (0 : UInt8) ∉ text → LinesOf ls text → Reads ls es → Gives text (es.takeWhile (fun e => e.email ≠ []))

/-! ## Where mailmaps come from -/

/-- a call of `git_mailmap_add_entry`; none is NULL -/
structure Call where
  realName : Option Bytes
  realEmail : Option Bytes
  name : Option Bytes
  email : Bytes
  deriving DecidableEq, Repr

/-- what a call says; it is refused if the email is empty -/
def Call.says (c : Call) : List Entry :=
  if c.email = [] then [] else [⟨c.realName.bind given, c.realEmail.bind given, c.name.bind given, c.email⟩]

/-- what a list of calls says, in order -/
def said (cs : List Call) : List Entry := cs.flatMap Call.says

/-- a repository, as far as `git_mailmap_from_repository` looks at it; a text that cannot be read (no such file, no such blob) is none -/
structure Repo where
  bare : Bool
  /-- the files, by their paths relative to the work directory -/
  file : Bytes → Option Bytes
  /-- the contents of the blob a revision names -/
  blob : Bytes → Option Bytes
  /-- `mailmap.blob` -/
  cfgBlob : Option Bytes
  /-- `mailmap.file` -/
  cfgFile : Option Bytes

/-- the texts a mailmap is made of, the later ones taking precedence: `.mailmap` in the work directory, the blob that `mailmap.blob` names
(in a bare repository without that setting, `HEAD:.mailmap`), and the file that `mailmap.file` names -/
def sources (r : Repo) : List Bytes :=
  (if r.bare then [] else (r.file b!".mailmap").toList) ++
  (match r.cfgBlob with
    | some rev => (r.blob rev).toList
    | none => if r.bare then (r.blob b!"HEAD:.mailmap").toList else []) ++
  (match r.cfgFile with
    | some path => (r.file path).toList
    | none => [])

end Verif.Mailmap.Spec
