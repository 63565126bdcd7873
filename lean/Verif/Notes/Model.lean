import Verif.IndexTree.Model
import Verif.TreeDiff.Model
import Verif.Oid.Model
/-! # Model of `src/libgit2/notes.c`: notes of objects

SHA-1 repositories: the text of an id has 40 digits, whose two halves are the first two digits (`annotated_object_sha + fanout` is what is left of it). Trees are as in `IndexTree`: an object
database of tree objects and the tree builder of `Tree`. Not modelled: commits but for their tree and that there are none, signatures and messages of commits, errors of the object database
and the reference database other than a missing object. -/
namespace Verif.Notes
open IndexTree (Odb Env readObj writeObj lookupTree treeEnv)

/-- `GIT_EEXISTS` [include/git2/errors.h:33] -/
def EEXISTS : Int := -4
/-- `GIT_ENOTFOUND` [include/git2/errors.h:32] -/
def ENOTFOUND : Int := -3

/-- `git__ishex`: src/util/util.h:217-224 -/
def ishex (s : Bytes) : Bool := s.all (fun c => 0 ≤ Oid.fromhex c)

/-- `find_subtree_in_current_level`: src/libgit2/notes.c:23-55. `t` is `annotated_object_sha + fanout`; the entries of `parent`, none for NULL. The mode is that of a directory in the
sense of tree.c:35-39. -/
def findLevel (odb : Odb) (t : Bytes) : List Tree.Entry → Res (List Tree.Entry)
  | [] => .err ENOTFOUND
  | e :: es =>
    if ¬ ishex e.name then findLevel odb t es
    else if e.isTree ∧ e.name.length = 2 ∧ e.name = t.take 2 then lookupTree odb e.oid
    else if e.name = t then .err EEXISTS
    else findLevel odb t es

/-- `find_subtree_r`: src/libgit2/notes.c:57-77. The result: the tree and what is left of the target. When nothing is left of it no subtree can match. -/
def findSubtree (odb : Odb) : Bytes → List Tree.Entry → Res (List Tree.Entry × Bytes)
  | a :: b :: t, es => match findLevel odb (a :: b :: t) es with
    | .ok sub => findSubtree odb t sub
    | .err x => if x = EEXISTS then .ok (es, a :: b :: t) else .err x
    | .ub => .ub
  | t, es => match findLevel odb t es with
    | .ok _ => .ub
    | .err x => if x = EEXISTS then .ok (es, t) else .err x
    | .ub => .ub

/-- `find_blob`: src/libgit2/notes.c:79-96 -/
def findBlob (t : Bytes) : List Tree.Entry → Res Bytes
  | [] => .err ENOTFOUND
  | e :: es => if e.name = t then .ok e.oid else findBlob t es

/-- inserting or removing: src/libgit2/notes.c:115-122 -/
def treeEdit (env : Tree.Env) (tb : Tree.Bld) (name : Bytes) : Option (Nat × Bytes) → Res Tree.Bld
  | some (mode, id) => Tree.insert env tb name id mode
  | none => Tree.remove env tb name

/-- `tree_write`: src/libgit2/notes.c:98-131. The result: the objects, and the id and the entries of the tree. -/
def treeWrite (env : Env) (odb : Odb) (source : List Tree.Entry) (name : Bytes) (val : Option (Nat × Bytes)) : Odb × Res (Bytes × List Tree.Entry) :=
  match Tree.new (treeEnv env odb) HashMap.init source with
  | .err x => (odb, .err x)
  | .ub => (odb, .ub)
  | .ok tb => match treeEdit (treeEnv env odb) tb name val with
    | .err x => (odb, .err x)
    | .ub => (odb, .ub)
    | .ok tb => match Tree.write tb with
      | .err x => (odb, .err x)
      | .ub => (odb, .ub)
      | .ok bytes => ((writeObj env odb bytes).2, match lookupTree (writeObj env odb bytes).2 (writeObj env odb bytes).1 with
        | .err x => .err x
        | .ub => .ub
        | .ok es => .ok ((writeObj env odb bytes).1, es))

/-- what is done with a note: the callbacks that are given to `manipulate_note_in_tree_r` [src/libgit2/notes.c:293-297, 389-391] -/
inductive Act where
  | insert (overwrite : Bool) (note : Bytes)
  | remove

/-- `note_exists_cb`: src/libgit2/notes.c:200-213, 234-250, 252-270 -/
def existsCb (env : Env) (odb : Odb) (parent : List Tree.Entry) (t : Bytes) : Act → Odb × Res (Bytes × List Tree.Entry)
  | .insert true note => treeWrite env odb parent t (some (0o100644, note))
  | .insert false _ => (odb, .err EEXISTS)
  | .remove => treeWrite env odb parent t none

/-- `note_notfound_cb`: src/libgit2/notes.c:215-232, 252-270 -/
def notFoundCb (env : Env) (odb : Odb) (parent : List Tree.Entry) (t : Bytes) : Act → Odb × Res (Bytes × List Tree.Entry)
  | .insert _ note => treeWrite env odb parent t (some (0o100644, note))
  | .remove => (odb, .err ENOTFOUND)

/-- `manipulate_note_in_tree_r`: src/libgit2/notes.c:133-198 -/
def manip (env : Env) (act : Act) : Odb → Bytes → List Tree.Entry → Odb × Res (Bytes × List Tree.Entry)
  | odb, a :: b :: t, parent => match findLevel odb (a :: b :: t) parent with
    | .ub => (odb, .ub)
    | .err x => if x = EEXISTS then existsCb env odb parent (a :: b :: t) act else if x = ENOTFOUND then notFoundCb env odb parent (a :: b :: t) act else (odb, .err x)
    | .ok sub => match manip env act odb t sub with
      | (odb, .err x) => (odb, .err x)
      | (odb, .ub) => (odb, .ub)
      | (odb, .ok (id, _)) => treeWrite env odb parent [a, b] (some (0o040000, id))
  | odb, t, parent => match findLevel odb t parent with
    | .ub => (odb, .ub)
    | .err x => if x = EEXISTS then existsCb env odb parent t act else if x = ENOTFOUND then notFoundCb env odb parent t act else (odb, .err x)
    | .ok _ => (odb, .ub)

/-- the notes reference: there is none; it leads to a commit with this tree; it leads to something that is not a commit that can be read [src/libgit2/notes.c:434-453] -/
inductive Ref where
  | missing
  | commit (tree : Bytes)
  | other

/-- a repository: its trees, its blobs, the notes reference [src/libgit2/repository.h] -/
structure Repo where
  trees : Odb
  blobs : Odb
  ref : Ref

/-- what does not change, and the id of a blob from its bytes [src/libgit2/odb.c:1598-1641] -/
structure NEnv where
  env : Env
  blobId : Bytes → Bytes

/-- the environment of a tree builder: which blobs there are depends on the repository [src/libgit2/object.c:580-602] -/
def envFor (n : NEnv) (blobs : Odb) : Env := { n.env with isBlob := fun id => (readObj blobs id).isSome }

/-- the bytes up to a NUL: `strlen`, `git__strndup` [src/libgit2/notes.c:290, 337] -/
def cstr (s : Bytes) : Bytes := s.takeWhile (· ≠ 0)

/-- `git_oid_tostr` of an id of 20 bytes: src/libgit2/oid.c:204-232 -/
def target (oid : Bytes) : Bytes := match Oid.fmt oid.length oid with
  | .ok t => t
  | _ => []

/-- `note_lookup` and `note_new`: src/libgit2/notes.c:344-375, 316-342. The result: the id and the text of the note. -/
def noteLookup (s : Repo) (tree : List Tree.Entry) (t : Bytes) : Res (Bytes × Bytes) :=
  match findSubtree s.trees t tree with
  | .err x => .err x
  | .ub => .ub
  | .ok (sub, rest) => match findBlob rest sub with
    | .err x => .err x
    | .ub => .ub
    | .ok id => match readObj s.blobs id with
      | none => .err ENOTFOUND
      | some b => .ok (id, cstr b)

/-- `git_note_commit_read`: src/libgit2/notes.c:455-475. The commit is given by its tree. -/
def commitRead (s : Repo) (tree oid : Bytes) : Res (Bytes × Bytes) :=
  match lookupTree s.trees tree with
  | .err x => .err x
  | .ub => .ub
  | .ok es => noteLookup s es (target oid)

/-- `git_note_read`: src/libgit2/notes.c:477-495. Without a commit the assertion of `git_commit_tree` fails (commit.c:686). -/
def read (s : Repo) (oid : Bytes) : Res (Bytes × Bytes) :=
  match s.ref with
  | .missing => .err ENOTFOUND
  | .other => .err (-1)
  | .commit tree => commitRead s tree oid

/-- `note_write`: src/libgit2/notes.c:272-314. The result: the tree of the new commit and the id of the note. -/
def noteWrite (n : NEnv) (s : Repo) (tree : List Tree.Entry) (t note : Bytes) (overwrite : Bool) : Repo × Res (Bytes × Bytes) :=
  let blobs := s.blobs ++ [(n.blobId (cstr note), cstr note)]
  match manip (envFor n blobs) (.insert overwrite (n.blobId (cstr note))) s.trees t tree with
  | (odb, .ok (id, _)) => (⟨odb, blobs, s.ref⟩, .ok (id, n.blobId (cstr note)))
  | (odb, .err x) => (⟨odb, blobs, s.ref⟩, .err x)
  | (odb, .ub) => (⟨odb, blobs, s.ref⟩, .ub)

/-- `git_note_commit_create`: src/libgit2/notes.c:497-526 -/
def commitCreate (n : NEnv) (s : Repo) (parent : Option Bytes) (oid note : Bytes) (overwrite : Bool) : Repo × Res (Bytes × Bytes) :=
  match parent with
  | none => noteWrite n s [] (target oid) note overwrite
  | some tree => match lookupTree s.trees tree with
    | .err x => (s, .err x)
    | .ub => (s, .ub)
    | .ok es => noteWrite n s es (target oid) note overwrite

/-- the commit that `retrieve_note_commit` leaves when `git_note_create` goes on: src/libgit2/notes.c:434-453, 544-548 -/
def Ref.tree : Ref → Option Bytes
  | .commit tree => some tree
  | _ => none

/-- `git_note_create`: src/libgit2/notes.c:528-569. The result: the id of the note. -/
def create (n : NEnv) (s : Repo) (oid note : Bytes) (overwrite : Bool) : Repo × Res Bytes :=
  match commitCreate n s s.ref.tree oid note overwrite with
  | (s, .ok (tree, id)) => ({ s with ref := .commit tree }, .ok id)
  | (s, .err x) => (s, .err x)
  | (s, .ub) => (s, .ub)

/-- `git_note_commit_remove` and `note_remove`: src/libgit2/notes.c:571-594, 377-408 -/
def commitRemove (n : NEnv) (s : Repo) (tree oid : Bytes) : Repo × Res Bytes :=
  match lookupTree s.trees tree with
  | .err x => (s, .err x)
  | .ub => (s, .ub)
  | .ok es => match manip (envFor n s.blobs) .remove s.trees (target oid) es with
    | (odb, .ok (id, _)) => ({ s with trees := odb }, .ok id)
    | (odb, .err x) => ({ s with trees := odb }, .err x)
    | (odb, .ub) => ({ s with trees := odb }, .ub)

/-- `git_note_remove`: src/libgit2/notes.c:596-625. Without a commit the assertion of `git_commit_tree` fails (commit.c:686). -/
def remove (n : NEnv) (s : Repo) (oid : Bytes) : Repo × Res Unit :=
  match s.ref with
  | .missing => (s, .err ENOTFOUND)
  | .other => (s, .err (-1))
  | .commit tree => match commitRemove n s tree oid with
    | (s, .ok tree) => ({ s with ref := .commit tree }, .ok ())
    | (s, .err x) => (s, .err x)
    | (s, .ub) => (s, .ub)

/-! ## Going through the notes -/

/-- the loop of `process_entry_path`: src/libgit2/notes.c:681-698; `none`: this is not a note entry -/
def strip : Bytes → Option Bytes
  | [] => some []
  | c :: cs => if c = c!"/" then strip cs else if Oid.fromhex c < 0 then none else (strip cs).map (c :: ·)

/-- `process_entry_path`: src/libgit2/notes.c:667-712. `prev` is what is in `annotated_object_id`. -/
def processPath (prev path : Bytes) : Res Bytes :=
  match strip path with
  | none => .ok prev
  | some t => if t.length ≠ 40 then .ok prev else Oid.fromString 20 (t ++ [0])

/-- the loop of `git_note_foreach` with `git_note_next`, over what the iterator of the tree gives: src/libgit2/notes.c:714-739, 790-810. What the callback gets (it returns 0), in order:
the id of the note and that of the object. `prev` is what is in `annotated_id`, at first what happens to be in an uninitialized variable. -/
def foreach (prev : Bytes) : List TreeDiff.Item → Res (List (Bytes × Bytes))
  | [] => .ok []
  | x :: xs => match processPath prev x.path with
    | .err e => .err e
    | .ub => .ub
    | .ok oid => match foreach oid xs with
      | .ok l => .ok ((x.id, oid) :: l)
      | .err e => .err e
      | .ub => .ub

/-- the options of `git_iterator_for_tree(it, tree, NULL)`: src/libgit2/notes.c:758 -/
def iterOpts : TreeDiff.Options := ⟨false, false, none, none, []⟩

end Verif.Notes
