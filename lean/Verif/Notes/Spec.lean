import Verif.Notes.Model
import Verif.IndexTree.Spec
import Verif.Oid.Spec
/-! # What the notes of a repository are, independently of the code -/
namespace Verif.Notes.Spec
open IndexTree (Odb readObj lookupTree)
open IndexTree.Spec (Collisionless)

/-- a lower-case hexadecimal digit -/
def Digit (c : UInt8) : Prop := (c!"0" ≤ c ∧ c ≤ c!"9") ∨ (c!"a" ≤ c ∧ c ≤ c!"f")

/-- a digit of either case -/
def AnyDigit (c : UInt8) : Prop := (Oid.Spec.hexVal c).isSome = true

/-- git's format of notes: the note for the object with the digits `t` is the file `t`, or it is in the directory that is called by the first two digits, under the remaining ones. -/
inductive At (odb : Odb) : List Tree.Entry → Bytes → Bytes → Prop where
  | here {es : List Tree.Entry} {e : Tree.Entry} : e ∈ es → e.isTree = false → At odb es e.name e.oid
  | inside {es sub : List Tree.Entry} {e : Tree.Entry} {a b : UInt8} {t id : Bytes} : e ∈ es → e.isTree = true → e.name = [a, b] → lookupTree odb e.oid = .ok sub → At odb sub t id →
      At odb es (a :: b :: t) id

/-- A tree of notes with `n` digits left, as git writes it: in order, no name twice, the subdirectories are there, the notes are blobs that are there; no digits lead to two places. There may be
files that are not notes, except if it is a `pure` one. No directory has more than `k` entries. (`n` is 40 at the top.) -/
inductive NoteTree (pure : Prop) (k : Nat) (trees blobs : Odb) : Nat → List Tree.Entry → Prop where
  | mk {n : Nat} {es : List Tree.Entry} :
      (es.map (·.name)).Nodup → es.Pairwise (fun a b => Tree.Spec.gitKey a.attr a.name < Tree.Spec.gitKey b.attr b.name) → es.length ≤ k →
      (∀ e ∈ es, e.attr < 65536 ∧ Tree.Spec.Name e.name ∧ c!"/" ∉ e.name ∧ e.oid.length = 20) →
      (∀ e ∈ es, e.name.length = n → (∀ c ∈ e.name, AnyDigit c) → e.isTree = false ∧ ∃ b, readObj blobs e.oid = some b) →
      (∀ e ∈ es, e.isTree = true → e.name.length = 2 → (∀ c ∈ e.name, AnyDigit c) → ∃ sub, lookupTree trees e.oid = .ok sub) →
      (∀ e ∈ es, e.isTree = true → e.name.length = 2 → (∀ c ∈ e.name, AnyDigit c) → ∀ sub, lookupTree trees e.oid = .ok sub → NoteTree pure k trees blobs (n - 2) sub) →
      (∀ e ∈ es, e.isTree = true → e.name.length = 2 → ∀ x ∈ es, x.name.length = n → (∀ c ∈ x.name, AnyDigit c) → ¬ e.name <+: x.name) →
      (pure → ∀ e ∈ es, (∀ c ∈ e.name, Digit c) ∧ ((e.isTree = true ∧ e.name.length = 2) ∨ (e.isTree = false ∧ e.name.length = n))) →
      NoteTree pure k trees blobs n es

/-- what the notes of the repository are: the text of the note of an object, if it has one -/
abbrev Map := Bytes → Option Bytes

/-- the text up to the first NUL, which is all that a C string can say -/
def textOf (s : Bytes) : Bytes := s.takeWhile (· ≠ 0)

/-- the notes of a repository are these (for ids of 20 bytes) -/
def Shows (s : Repo) (m : Map) : Prop :=
  ∀ oid : Bytes, oid.length = 20 → ∀ text, m oid = some text ↔
    ∃ tree es id b, s.ref = .commit tree ∧ lookupTree s.trees tree = .ok es ∧ At s.trees es (Oid.Spec.hex oid) id ∧ readObj s.blobs id = some b ∧ text = textOf b

/-- the repository has no notes reference, or that of a tree of notes -/
def Fit (pure : Prop) (k : Nat) (s : Repo) : Prop :=
  s.ref = .missing ∨ ∃ tree es, s.ref = .commit tree ∧ lookupTree s.trees tree = .ok es ∧ NoteTree pure k s.trees s.blobs 40 es

/-- ids have 20 bytes and are not null; names of digits are allowed in trees -/
structure EnvOk (n : NEnv) : Prop where
  idOf : ∀ b, (n.env.idOf b).length = 20 ∧ ∃ c ∈ n.env.idOf b, c ≠ 0
  blobId : ∀ b, (n.blobId b).length = 20 ∧ ∃ c ∈ n.blobId b, c ≠ 0
  name : ∀ t, t ≠ [] → (∀ c ∈ t, Digit c) → n.env.nameValid t = true

/-- calls -/
inductive Op where
  | create (oid text : Bytes) (overwrite : Bool)
  | remove (oid : Bytes)
  | read (oid : Bytes)

/-- the object that is meant -/
def Op.oid : Op → Bytes
  | .create oid _ _ => oid
  | .remove oid => oid
  | .read oid => oid

/-- what a call does to a map, and what it answers: `GIT_EEXISTS` (-4) for a note that is there and is not to be overwritten, `GIT_ENOTFOUND` (-3) for one that is not there; `read` gives the text -/
def apply (m : Map) : Op → Map × Res Bytes
  | .create oid text overwrite => if (m oid).isSome ∧ overwrite = false then (m, .err (-4)) else (fun x => if x = oid then some (textOf text) else m x, .ok [])
  | .remove oid => if (m oid).isSome then (fun x => if x = oid then none else m x, .ok []) else (m, .err (-3))
  | .read oid => match m oid with
    | some text => (m, .ok text)
    | none => (m, .err (-3))

/-- what the library does -/
def call (n : NEnv) (s : Repo) : Op → Repo × Res Bytes
  | .create oid text overwrite => match create n s oid text overwrite with
    | (s, .ok _) => (s, .ok [])
    | (s, .err x) => (s, .err x)
    | (s, .ub) => (s, .ub)
  | .remove oid => match remove n s oid with
    | (s, .ok _) => (s, .ok [])
    | (s, .err x) => (s, .err x)
    | (s, .ub) => (s, .ub)
  | .read oid => match read s oid with
    | .ok (_, text) => (s, .ok text)
    | .err x => (s, .err x)
    | .ub => (s, .ub)

/-- many calls on a map -/
def applyAll (m : Map) : List Op → Map × List (Res Bytes)
  | [] => (m, [])
  | op :: ops => let r := applyAll (apply m op).1 ops
    (r.1, (apply m op).2 :: r.2)

/-- many calls on the repository -/
def callAll (n : NEnv) (s : Repo) : List Op → Repo × List (Res Bytes)
  | [] => (s, [])
  | op :: ops => let r := callAll n (call n s op).1 ops
    (r.1, (call n s op).2 :: r.2)

end Verif.Notes.Spec
