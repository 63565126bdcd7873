import Verif.RefDb.Model
import Verif.FileBuf.Spec
import Verif.RefPacked.Spec
/-! # The reference database as users see it -/
namespace Verif.RefDb
open Verif.Conc Verif.FileBuf

/-- The value of a reference in a state of the file system: the loose file if there is one, otherwise the record of the packed file. -/
def val (size : Nat) (s : FS) (n : Path) : Res RefVal :=
  match s.content n with
  | some b => looseParse size b
  | none =>
    match s.content packedRefs with
    | none => .err RefPacked.ENOTFOUND
    | some b =>
      match RefPacked.lookup size b n false with
      | .ok (id, _) => .ok (.oid id)
      | .err e => .err e
      | .ub => .ub

/-- The current value is the expected one: nothing was expected, or absence was expected (a zero id) and there is no such reference, or the
value is the expected one. -/
def Matches (size : Nat) (oldId oldTarget : Option Bytes) (cur : Res RefVal) : Prop :=
  (oldId = none ∧ oldTarget = none) ∨
  (cur = .err RefPacked.ENOTFOUND ∧ oldId = some (List.replicate size 0)) ∨
  (∃ x, cur = .ok (.oid x) ∧ oldId = some x ∧ oldTarget = none) ∨
  (∃ t, cur = .ok (.sym t) ∧ oldTarget = some t ∧ oldId = none)

/-- a name a reference can have: not empty, no newline or NUL, not ending in a carriage return, not ending in ".lock", not "packed-refs" -/
structure RefName (n : Path) : Prop where
  ne : n ≠ []
  nl : (10 : UInt8) ∉ n
  nul : (0 : UInt8) ∉ n
  cr : n.getLast? ≠ some 13
  lock : ¬ IsLock n
  packed : n ≠ packedRefs

/-- a value a reference can have -/
def RefVal.Valid (size : Nat) : RefVal → Prop
  | .oid x => x.length = size
  | .sym t => t ≠ [] ∧ (0 : UInt8) ∉ t ∧ ∀ c, t.getLast? = some c → isspace c = false

/-- a well-formed packed file: distinct names, and sorted if it says so -/
def PackedFile (size : Nat) (b : Bytes) : Prop :=
  ∃ lines recs, b = RefPacked.Spec.file lines recs ∧ (∀ l ∈ lines, (10 : UInt8) ∉ l ∧ (0 : UInt8) ∉ l) ∧
    (∀ r ∈ recs, RefPacked.Spec.Rec.Valid size r) ∧ (∀ r ∈ recs, (0 : UInt8) ∉ r.name ∧ r.name.getLast? ≠ some 13) ∧
    recs.Pairwise (fun a b => a.name ≠ b.name) ∧
    ((∃ k, RefPacked.setPeelingMode b false = .ok (true, k)) → recs.Pairwise (fun a b => a.name < b.name))

/-- the tasks whose effect on the packed file matters -/
def Task.rewrites : Task → Prop
  | .write _ => False
  | .pack _ => True
  | .delete _ => True
  | .read _ => False

/-- what is asked of the arguments of a task -/
def Task.Valid (size : Nat) : Task → Prop
  | .write j => RefName j.name ∧ j.value.Valid size ∧ j.opts.noBuffer = false ∧ j.opts.append = false
  | .pack j => (∀ n ∈ j.names, isLockName n = false → RefName n) ∧ (∀ n x p, j.peel n x = some (some p) → p.length = size) ∧ j.opts.noBuffer = false ∧
      j.opts.append = false
  | .delete j => RefName j.name ∧ (∀ n x p, j.peel n x = some (some p) → p.length = size) ∧ j.opts.noBuffer = false ∧ j.opts.append = false
  | .read n => RefName n

/-- The change of the value of reference `n` that a task is entitled to. -/
def Task.Trans (size : Nat) (t : Task) (n : Path) (v v' : Res RefVal) : Prop :=
  match t with
  | .write j => n = j.name ∧ Matches size j.oldId j.oldTarget v ∧ v' = .ok j.value
  | .pack _ => False
  | .delete j => n = j.name ∧ Matches size j.oldId j.oldTarget v ∧ v' = .err RefPacked.ENOTFOUND
  | .read _ => False

/-- all tasks run at once -/
def start (size : Nat) (tasks : Pid → Task) (fs : FS) : Config Cmd R FS Outcome := ⟨fs, fun p => (tasks p).run size⟩

/-- What is assumed: ids are not empty; the file system is well formed and untouched; the arguments are sensible; at most one process rewrites
the packed file, and if one does, the packed file is well formed at the start and reading does not fail; syncing directories does not fail. -/
structure Setup (size : Nat) (faults : Faults) (tasks : Pid → Task) (fs : FS) : Prop where
  size_pos : 0 < size
  fresh : Fresh fs
  valid : ∀ p, (tasks p).Valid size
  one : ∀ p q, (tasks p).rewrites → (tasks q).rewrites → p = q
  packed : ∀ p, (tasks p).rewrites → fs.content packedRefs = none ∨ ∃ b, fs.content packedRefs = some b ∧ PackedFile size b
  sync : faults.parentSync = false
  read : ∀ p, (tasks p).rewrites → faults.read = false

end Verif.RefDb
