import Verif.Base
import Verif.Oid.Spec
/-! # FETCH_HEAD, stated independently of its format -/
namespace Verif.FetchHead.Spec

/-- something that was fetched: what is handed to `git_fetchhead_write`, and what `git_repository_fetchhead_foreach` hands to its callback;
none is NULL -/
structure Ref where
  oid : Bytes
  isMerge : Bool
  name : Option Bytes
  url : Option Bytes
  deriving DecidableEq, Repr

/-- a text without NUL and line feed -/
def OneLine (s : Bytes) : Prop := (0 : UInt8) ∉ s ∧ c!"\n" ∉ s

/-- a name that a reference can have, as far as it matters here: one line without spaces, not empty; what follows `refs/heads/` or
`refs/tags/` does not begin with a slash -/
structure NameOk (n : Bytes) : Prop where
  line : OneLine n
  space : c!" " ∉ n
  nonempty : n ≠ []
  heads : ¬ b!"refs/heads//" <+: n
  tags : ¬ b!"refs/tags//" <+: n

/-- what can be recorded faithfully: an id of the repository's kind, a name a reference can have, a url of one line (for `HEAD`, whose name
is not recorded, the url must not look like a name) -/
structure RefOk (size : Nat) (r : Ref) : Prop where
  oid : r.oid.length = size
  name : ∃ n, r.name = some n ∧ NameOk n
  url : ∃ u, r.url = some u ∧ OneLine u ∧ (r.name = some b!"HEAD" → ¬ b!"'" <+: u ∧ ¬ b!"branch '" <+: u ∧ ¬ b!"tag '" <+: u)

/-- what is read back: everything, but a `HEAD` has lost its name and is to be merged -/
def shown (r : Ref) : Ref := if r.name = some b!"HEAD" then { r with name := none, isMerge := true } else r

/-- the order in which they are recorded: those to be merged first, otherwise by name -/
def Before (a b : Ref) : Prop :=
  (a.isMerge = true ∧ b.isMerge = false) ∨
  (a.isMerge = b.isMerge ∧ ∀ n n', a.name = some n → b.name = some n' → n ≤ n')

/-- what a callback gets to see: everything up to the first refusal -/
def seen (cb : Ref → Int) : List Ref → Int → List Ref × Int
  | [], code => ([], code)
  | r :: rs, code => if cb r ≠ 0 then ([r], cb r) else (r :: (seen cb rs code).1, (seen cb rs code).2)

/-! ## The format -/

/-- the text of an id, in digits of either case -/
def IsId (size : Nat) (t id : Bytes) : Prop := t.length = 2 * size ∧ t.mapM Oid.Spec.hexVal = some (Oid.Spec.nibbles id)

/-- how it is said whether a reference is to be merged -/
def mergeText (m : Bool) : Bytes := if m then [] else b!"not-for-merge"

/-- the kinds of references, and the directories of their names -/
def kinds : List (Bytes × Bytes) := [(b!"branch ", b!"refs/heads/"), (b!"tag ", b!"refs/tags/"), ([], [])]

/-- the full name: slashes after a directory are dropped, no name is NULL -/
def fullName (dir name : Bytes) : Option Bytes :=
  if dir = [] then (if name = [] then none else some name) else some (dir ++ name.dropWhile (· = c!"/"))

/-- What a line (without its line feed) says; `prev` is whether the reference of the line before is to be merged. -/
inductive Line (size : Nat) (prev : Bool) : Bytes → Ref → Prop
  /-- an id alone, as very old clients wrote it -/
  | id (t id) : IsId size t id → Line size prev t ⟨id, true, none, none⟩
  /-- an id and a tab: nothing is said about merging -/
  | tab (t id) : IsId size t id → Line size prev (t ++ b!"\t") ⟨id, prev, none, none⟩
  /-- a url without a name -/
  | plain (t id m url) : IsId size t id → (∀ k ∈ kinds, ¬ k.1 ++ b!"'" <+: url) →
      Line size prev (t ++ b!"\t" ++ mergeText m ++ b!"\t" ++ url) ⟨id, m, none, some url⟩
  /-- a name (the first quote followed by a space ends it) and a url -/
  | named (t id m word dir name url) : IsId size t id → (word, dir) ∈ kinds → ¬ b!"' " <:+: name ++ b!"'" →
      Line size prev (t ++ b!"\t" ++ mergeText m ++ b!"\t" ++ word ++ b!"'" ++ name ++ b!"' of " ++ url) ⟨id, m, fullName dir name, some url⟩

/-- What the lines of a file say, and the code: reading stops with an error at the first line that says nothing, and at the end if the last line
is not ended. -/
inductive File (size : Nat) : Bool → List Bytes → Bytes → List Ref → Int → Prop
  | done (prev) : File size prev [] [] [] 0
  | noEol (prev last) : last ≠ [] → File size prev [] last [] (-1)
  | bad (prev l ls last) : (∀ r, ¬ Line size prev l r) → File size prev (l :: ls) last [] (-1)
  | good (prev l ls last r rs c) : Line size prev l r → File size r.isMerge ls last rs c → File size prev (l :: ls) last (r :: rs) c

end Verif.FetchHead.Spec
