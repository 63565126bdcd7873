import Verif.TreeDiff.Model
import Verif.Wildmatch.Spec
/-! # What the entries of a tree are, and what the diff of two trees should say -/
namespace Verif.TreeDiff.Spec

/-- the path of an entry in its directory: that of a subdirectory ends with a slash -/
def key (e : Entry) : Bytes := if e.isTree then e.name ++ b!"/" else e.name

/-- the tree with the entries `es` has the entry `e` at a path, in itself or in one of its subdirectories -/
inductive At (store : Store) : List Entry → Bytes → Entry → Prop where
  | here {es : List Entry} {e : Entry} : e ∈ es → At store es (key e) e
  | inside {es sub : List Entry} {d e : Entry} {p : Bytes} : d ∈ es → d.isTree = true → store d.id = some sub → At store sub p e → At store es (d.name ++ b!"/" ++ p) e

/-- a tree as git writes it: the names are not empty, have no slash (and no NUL), and the entries are in the order of their paths -/
def Canonical (es : List Entry) : Prop := (∀ e ∈ es, e.name ≠ [] ∧ c!"/" ∉ e.name ∧ (0 : UInt8) ∉ e.name) ∧ es.Pairwise (fun a b => key a < key b)

/-- the tree and all its subdirectories are there, and are as git writes them. (That it is inductive means that no tree contains itself.) -/
inductive Good (store : Store) : List Entry → Prop where
  | mk {es : List Entry} : Canonical es → (∀ d ∈ es, d.isTree = true → store d.id ≠ none) →
      (∀ d ∈ es, d.isTree = true → ∀ sub, store d.id = some sub → Good store sub) → Good store es

/-- the path is in the range: it is not before `start`, and not after `stop`, except that what `stop` is a prefix of is still in the range -/
def InRange (start stop : Option Bytes) (p : Bytes) : Prop := (∀ s, start = some s → s ≤ p) ∧ (∀ e, stop = some e → p ≤ e ∨ e <+: p)

/-- the path is that of a directory in which the range starts -/
def LeadsTo (start : Option Bytes) (p : Bytes) : Prop := ∃ s, start = some s ∧ p <+: s ∧ p.getLast? = some c!"/"

/-- what a path of a path list asks for: itself (as a file or as a directory) and all that is in it, if it does not end with a slash; the directory and all that is in it, if it does -/
def Asks (q p : Bytes) : Prop := if q.getLast? = some c!"/" then q <+: p else p = q ∨ (q ++ b!"/") <+: p

/-- a path is listed: something asks for it, or it is a directory on the way to something that is asked for; everything is listed if the list is empty -/
def Listed (list : List Bytes) (p : Bytes) : Prop := list = [] ∨ ∃ q ∈ list, Asks q p ∨ (p.getLast? = some c!"/" ∧ p <+: q)

/-- No path of the list is continued by another one with a byte that sorts before the slash (there are `foo` and `foo.c`, say). -/
def NoClash (list : List Bytes) : Prop := ∀ q ∈ list, q ≠ [] → q.getLast? ≠ some c!"/" → ∀ r ∈ list, ∀ c t, r = q ++ c :: t → c!"/" ≤ c

/-- all that an iterator gives: `advance` is called until it reports GIT_ITEROVER -/
inductive Yields (store : Store) (o : Opts) : Iter → List Item → Prop where
  | over {it it' : Iter} {fuel : Nat} : advance store o fuel it = some (.ok (it', none)) → Yields store o it []
  | next {it it' : Iter} {fuel : Nat} {x : Item} {xs : List Item} : advance store o fuel it = some (.ok (it', some x)) → Yields store o it' xs → Yields store o it (x :: xs)

/-! ## The diff -/

/-- what a tree has at a path (and is not a directory): mode and id -/
def Has (store : Store) (tree : Option (List Entry)) (p : Bytes) (mode : Nat) (id : Bytes) : Prop :=
  ∃ es e, tree = some es ∧ At store es p e ∧ e.isTree = false ∧ mode = e.mode ∧ id = e.id

/-- `f` says what a tree has at a path -/
def Says (store : Store) (tree : Option (List Entry)) (p : Bytes) (f : Option (Nat × Bytes)) : Prop :=
  ∀ mode id, f = some (mode, id) ↔ Has store tree p mode id

/-- a file that is there -/
def file (f : Nat × Bytes) : File := ⟨f.1, f.2, true⟩

/-- the type of a file (regular, link, submodule) from its mode -/
def kind (f : Nat × Bytes) : Nat := f.1 / 4096 % 16

/-- The deltas for a path, by what the old and the new tree have there, in order. `unmod`: deltas for what did not change are wanted; `tc`: a change of type is one delta;
`ignoreSub`: submodules do not change. -/
def expected (unmod tc ignoreSub : Bool) (p : Bytes) : Option (Nat × Bytes) → Option (Nat × Bytes) → List Delta
  | none, none => []
  | some f, none => [⟨.deleted, p, 1, file f, noFile⟩]
  | none, some g => [⟨.added, p, 1, noFile, file g⟩]
  | some f, some g =>
    if kind f ≠ kind g then
      if tc then [⟨.typechange, p, 2, file f, file g⟩] else [⟨.deleted, p, 1, file f, noFile⟩, ⟨.added, p, 1, noFile, file g⟩]
    else if (f = g ∧ ∃ c ∈ f.2, c ≠ 0) ∨ (kind g = 14 ∧ ignoreSub = true) then
      if unmod then [⟨.unmodified, p, 2, file f, file g⟩] else []
    else [⟨.modified, p, 2, file f, file g⟩]

/-- a delta seen from the other side -/
def turn (d : Delta) : Delta :=
  ⟨match d.status with
    | .added => .deleted
    | .deleted => .added
    | s => s, d.path, d.nfiles, d.new, d.old⟩

/-! ## Pathspecs -/

/-- a pathspec without anything peculiar: it is not empty or ".", does not begin with "!", "#" or "/", does not end with a slash or a blank, has no backslash and no control characters
for spaces and ends of lines -/
def Plain (q : Bytes) : Prop :=
  q ≠ [] ∧ q ≠ b!"." ∧ q.head? ≠ some c!"!" ∧ q.head? ≠ some c!"#" ∧ q.head? ≠ some c!"/" ∧ q.getLast? ≠ some c!"/" ∧ q.getLast? ≠ some c!" " ∧
    ∀ c ∈ q, c ≠ c!"\\" ∧ ¬ (9 ≤ c ∧ c ≤ 13)

/-- what a plain pathspec selects: the path that it is; the paths that it matches as a glob pattern (wildcards match slashes); if it has no wildcards, what is in the directory that it is -/
def Selects (q p : Bytes) : Prop :=
  p = q ∨ Wildmatch.Spec.Matches ⟨false, false⟩ q p ∨ ((∀ c ∈ q, c ∉ b!"*?[") ∧ (q ++ b!"/") <+: p)

end Verif.TreeDiff.Spec
